import Mathlib.Analysis.Calculus.ContDiff.Basic
import Mathlib.Analysis.Calculus.ContDiff.RCLike
import Mathlib.Analysis.Normed.Module.FiniteDimension
import Verif.Model.PFSolve
import Verif.Lemmas.PFLocal
import Verif.Props.PerfectForesightJac

/-!
# The stacked system of a perfect foresight path, as a map between normed spaces
-/

set_option linter.unusedSectionVars false

namespace Dolo

open Filter Topology

/-- The transition function, as a function of one argument. -/
def gAll {S X E : Type} (g : (E → ℝ) → (S → ℝ) → (X → ℝ) → (E → ℝ) → S → ℝ) :
    (E → ℝ) × (S → ℝ) × (X → ℝ) × (E → ℝ) → S → ℝ := fun z => g z.1 z.2.1 z.2.2.1 z.2.2.2

/-- The arbitrage function, as a function of one argument. -/
def fAll {S X E : Type} (f : (E → ℝ) → (S → ℝ) → (X → ℝ) → (E → ℝ) → (S → ℝ) → (X → ℝ) → X → ℝ) :
    (E → ℝ) × (S → ℝ) × (X → ℝ) × (E → ℝ) × (S → ℝ) × (X → ℝ) → X → ℝ :=
  fun z => f z.1 z.2.1 z.2.2.1 z.2.2.2.1 z.2.2.2.2.1 z.2.2.2.2.2

section

variable {S X E : Type} [Fintype S] [Fintype X] [Fintype E] [DecidableEq S] [DecidableEq X]

/-- What `diff=True` is documented to return: the partial derivatives, wherever the functions are differentiable. -/
structure PFDiff.IsDerivative (d : PFDiff S X E) (M : PFModel ℝ S X E) : Prop where
  g_s : ∀ m s x m', DifferentiableAt ℝ (gAll M.g) (m, s, x, m') → ∀ a b,
    d.g_s m s x m' a b = fderiv ℝ (gAll M.g) (m, s, x, m') (0, Pi.single b 1, 0, 0) a
  g_x : ∀ m s x m', DifferentiableAt ℝ (gAll M.g) (m, s, x, m') → ∀ a b,
    d.g_x m s x m' a b = fderiv ℝ (gAll M.g) (m, s, x, m') (0, 0, Pi.single b 1, 0) a
  f_s : ∀ m s x m' s' x', DifferentiableAt ℝ (fAll M.f) (m, s, x, m', s', x') → ∀ a b,
    d.f_s m s x m' s' x' a b = fderiv ℝ (fAll M.f) (m, s, x, m', s', x') (0, Pi.single b 1, 0, 0, 0, 0) a
  f_x : ∀ m s x m' s' x', DifferentiableAt ℝ (fAll M.f) (m, s, x, m', s', x') → ∀ a b,
    d.f_x m s x m' s' x' a b = fderiv ℝ (fAll M.f) (m, s, x, m', s', x') (0, 0, Pi.single b 1, 0, 0, 0) a
  f_S : ∀ m s x m' s' x', DifferentiableAt ℝ (fAll M.f) (m, s, x, m', s', x') → ∀ a b,
    d.f_S m s x m' s' x' a b = fderiv ℝ (fAll M.f) (m, s, x, m', s', x') (0, 0, 0, 0, Pi.single b 1, 0) a
  f_X : ∀ m s x m' s' x', DifferentiableAt ℝ (fAll M.f) (m, s, x, m', s', x') → ∀ a b,
    d.f_X m s x m' s' x' a b = fderiv ℝ (fAll M.f) (m, s, x, m', s', x') (0, 0, 0, 0, 0, Pi.single b 1) a

/-- Stacked unknowns. -/
abbrev PFVec (N : ℕ) (S X : Type) := Fin N × (S ⊕ X) → ℝ

/-- Initial state and exogenous path. -/
abbrev PFData (N : ℕ) (S E : Type) := (S → ℝ) × (Fin N → E → ℝ)

/-- The exogenous path of the data. -/
def exoOf (N : ℕ) (m : Fin N → E → ℝ) : ℕ → E → ℝ := fun t => if h : t < N then m ⟨t, h⟩ else 0

/-- The stacked system. -/
noncomputable def pfPhi (M : PFModel ℝ S X E) (N : ℕ) : PFVec N S X × PFData N S E → PFVec N S X :=
  fun w ic => pfRes M N (pathOf N w.1) w.2.1 (exoOf N w.2.2) ic.1 ic.2

theorem pfRes_entries (M : PFModel ℝ S X E) (N : ℕ) (hN : 2 ≤ N) (guess : ℕ → S ⊕ X → ℝ) (start : S → ℝ)
    (m : ℕ → E → ℝ) :
    (∀ a, pfRes M N guess start m 0 (.inl a) = start a - guess 0 (.inl a)) ∧
      (∀ i a, i + 1 < N → pfRes M N guess start m (i + 1) (.inl a) =
        M.g (m i) (stOf guess i) (ctOf guess i) (m (i + 1)) a - guess (i + 1) (.inl a)) ∧
      (∀ i b, i + 1 < N → pfRes M N guess start m i (.inr b) =
        M.f (m i) (stOf guess i) (ctOf guess i) (m (i + 1)) (stOf guess (i + 1)) (ctOf guess (i + 1)) b) ∧
      (∀ b, pfRes M N guess start m (N - 1) (.inr b) = guess (N - 2) (.inr b) - guess (N - 1) (.inr b)) := by
  obtain ⟨res, e, h⟩ := detResidual_entries M.g M.f N hN guess start m
  have : pfRes M N guess start m = res := by rw [pfRes, e]
  rw [this]
  exact h

/-- Where the transition function is evaluated. -/
def gPoint (N : ℕ) (i : ℕ) (w : PFVec N S X × PFData N S E) : (E → ℝ) × (S → ℝ) × (X → ℝ) × (E → ℝ) :=
  (exoOf N w.2.2 i, stOf (pathOf N w.1) i, ctOf (pathOf N w.1) i, exoOf N w.2.2 (i + 1))

/-- Where the arbitrage function is evaluated. -/
def fPoint (N : ℕ) (i : ℕ) (w : PFVec N S X × PFData N S E) :
    (E → ℝ) × (S → ℝ) × (X → ℝ) × (E → ℝ) × (S → ℝ) × (X → ℝ) :=
  (exoOf N w.2.2 i, stOf (pathOf N w.1) i, ctOf (pathOf N w.1) i, exoOf N w.2.2 (i + 1),
    stOf (pathOf N w.1) (i + 1), ctOf (pathOf N w.1) (i + 1))

theorem coord_contDiff {N : ℕ} (i : ℕ) (c : S ⊕ X) :
    ContDiff ℝ 1 fun w : PFVec N S X × PFData N S E => pathOf N w.1 i c := by
  unfold pathOf
  by_cases h : i < N
  · simp only [dif_pos h]
    fun_prop
  · simp only [dif_neg h]
    exact contDiff_const

theorem exo_contDiff {N : ℕ} (i : ℕ) :
    ContDiff ℝ 1 fun w : PFVec N S X × PFData N S E => exoOf N w.2.2 i := by
  unfold exoOf
  by_cases h : i < N
  · simp only [dif_pos h]
    fun_prop
  · simp only [dif_neg h]
    exact contDiff_const

theorem st_contDiff {N : ℕ} (i : ℕ) :
    ContDiff ℝ 1 fun w : PFVec N S X × PFData N S E => stOf (pathOf N w.1) i :=
  contDiff_pi.2 fun a => coord_contDiff i (.inl a)

theorem ct_contDiff {N : ℕ} (i : ℕ) :
    ContDiff ℝ 1 fun w : PFVec N S X × PFData N S E => ctOf (pathOf N w.1) i :=
  contDiff_pi.2 fun a => coord_contDiff i (.inr a)

theorem gPoint_contDiff {N : ℕ} (i : ℕ) : ContDiff ℝ 1 (gPoint (S := S) (X := X) (E := E) N i) :=
  (exo_contDiff i).prodMk ((st_contDiff i).prodMk ((ct_contDiff i).prodMk (exo_contDiff (i + 1))))

theorem fPoint_contDiff {N : ℕ} (i : ℕ) : ContDiff ℝ 1 (fPoint (S := S) (X := X) (E := E) N i) :=
  (exo_contDiff i).prodMk ((st_contDiff i).prodMk ((ct_contDiff i).prodMk ((exo_contDiff (i + 1)).prodMk
    ((st_contDiff (i + 1)).prodMk (ct_contDiff (i + 1))))))

theorem pfPhi_contDiffAt (M : PFModel ℝ S X E) (N : ℕ) (hN : 2 ≤ N) (w : PFVec N S X × PFData N S E)
    (hg : ∀ i, i + 1 < N → ContDiffAt ℝ 1 (gAll M.g) (gPoint N i w))
    (hf : ∀ i, i + 1 < N → ContDiffAt ℝ 1 (fAll M.f) (fPoint N i w)) : ContDiffAt ℝ 1 (pfPhi M N) w := by
  rw [contDiffAt_pi]
  rintro ⟨⟨i, hi⟩, c⟩
  have key := fun v : PFVec N S X × PFData N S E =>
    pfRes_entries M N hN (pathOf N v.1) v.2.1 (exoOf N v.2.2)
  rcases c with a | b
  · rcases i with _ | i
    · have e : (fun v => pfPhi M N v (⟨0, hi⟩, .inl a)) = fun v : PFVec N S X × PFData N S E =>
          v.2.1 a - pathOf N v.1 0 (.inl a) := funext fun v => (key v).1 a
      rw [e]
      exact (ContDiff.contDiffAt (by fun_prop)).sub (coord_contDiff 0 (.inl a)).contDiffAt
    · have e : (fun v => pfPhi M N v (⟨i + 1, hi⟩, .inl a)) = fun v : PFVec N S X × PFData N S E =>
          gAll M.g (gPoint N i v) a - pathOf N v.1 (i + 1) (.inl a) := funext fun v => (key v).2.1 i a hi
      rw [e]
      exact ((contDiffAt_pi.1 ((hg i hi).comp w (gPoint_contDiff i).contDiffAt)) a).sub
        (coord_contDiff (i + 1) (.inl a)).contDiffAt
  · by_cases h : i + 1 < N
    · have e : (fun v => pfPhi M N v (⟨i, hi⟩, .inr b)) = fun v : PFVec N S X × PFData N S E =>
          fAll M.f (fPoint N i v) b := funext fun v => (key v).2.2.1 i b h
      rw [e]
      exact (contDiffAt_pi.1 ((hf i h).comp w (fPoint_contDiff i).contDiffAt)) b
    · obtain rfl : i = N - 1 := by omega
      have e : (fun v => pfPhi M N v (⟨N - 1, hi⟩, .inr b)) = fun v : PFVec N S X × PFData N S E =>
          pathOf N v.1 (N - 2) (.inr b) - pathOf N v.1 (N - 1) (.inr b) := funext fun v => (key v).2.2.2 b
      rw [e]
      exact (coord_contDiff (N - 2) (.inr b)).contDiffAt.sub (coord_contDiff (N - 1) (.inr b)).contDiffAt

/-- Sums over the coordinates of a vector. -/
theorem sum_coord {A : Type} [Fintype A] [DecidableEq A] {F : Type} [NormedAddCommGroup F] [NormedSpace ℝ F]
    (L : (A → ℝ) →L[ℝ] F) (h : A → ℝ) : L h = ∑ a, h a • L (Pi.single a 1) := by
  have e : h = ∑ a, h a • (Pi.single a (1 : ℝ) : A → ℝ) := by
    funext j
    simp [Finset.sum_apply, Pi.single_apply]
  conv_lhs => rw [e]
  rw [map_sum]
  simp only [map_smul]

/-- Where the model functions are differentiable, the blocks are the derivatives along the path. -/
theorem blocks_are_derivs (M : PFModel ℝ S X E) (d : PFDiff S X E) (hd : d.IsDerivative M) (N : ℕ)
    (w : PFVec N S X × PFData N S E) (hg : ∀ i, i + 1 < N → DifferentiableAt ℝ (gAll M.g) (gPoint N i w))
    (hf : ∀ i, i + 1 < N → DifferentiableAt ℝ (fAll M.f) (fPoint N i w)) :
    BlocksAreDerivs M.g M.f N (pathOf N w.1) (exoOf N w.2.2) (pfBlocks d (pathOf N w.1) (exoOf N w.2.2)) := by
  constructor
  · intro i hi a
    have h1 := (hg i hi).hasFDerivAt
    set G := fderiv ℝ (gAll M.g) (gPoint N i w) with hG
    let inS : (S ⊕ X → ℝ) →L[ℝ] (S → ℝ) := ContinuousLinearMap.pi fun s => ContinuousLinearMap.proj (.inl s)
    let inX : (S ⊕ X → ℝ) →L[ℝ] (X → ℝ) := ContinuousLinearMap.pi fun s => ContinuousLinearMap.proj (.inr s)
    have h2 : HasFDerivAt (fun z : S ⊕ X → ℝ => (exoOf N w.2.2 i, inS z, inX z, exoOf N w.2.2 (i + 1)))
        ((0 : (S ⊕ X → ℝ) →L[ℝ] (E → ℝ)).prod (inS.prod (inX.prod (0 : (S ⊕ X → ℝ) →L[ℝ] (E → ℝ)))))
        (pathOf N w.1 i) :=
      (hasFDerivAt_const _ _).prodMk (inS.hasFDerivAt.prodMk (inX.hasFDerivAt.prodMk (hasFDerivAt_const _ _)))
    have h3 := (HasFDerivAt.comp (pathOf N w.1 i) (g := gAll M.g) h1 h2)
    have h4 := hasFDerivAt_pi'.1 h3 a
    refine ⟨_, h4, fun h => ?_⟩
    have e1 : G (0, inS h, inX h, 0) = G.comp (ContinuousLinearMap.prod 0 (ContinuousLinearMap.prod (.id ℝ (S → ℝ)) 0)) (inS h)
        + G.comp (ContinuousLinearMap.prod 0 (ContinuousLinearMap.prod 0 (ContinuousLinearMap.prod (.id ℝ (X → ℝ)) 0))) (inX h) := by
      simp only [ContinuousLinearMap.comp_apply, ← map_add]
      congr 1
      simp
    have e2 : ((ContinuousLinearMap.proj (R := ℝ) (φ := fun _ : S => ℝ) a).comp (G.comp
        ((0 : (S ⊕ X → ℝ) →L[ℝ] (E → ℝ)).prod (inS.prod (inX.prod (0 : (S ⊕ X → ℝ) →L[ℝ] (E → ℝ))))))) h
        = G (0, inS h, inX h, 0) a := rfl
    rw [e2, e1, sum_coord _ (inS h), sum_coord _ (inX h), Fintype.sum_sum_type]
    simp only [Pi.add_apply, Finset.sum_apply, Pi.smul_apply, smul_eq_mul, Sum.elim_inl, Sum.elim_inr, pfBlocks]
    congr 1
    · refine Finset.sum_congr rfl fun b _ => ?_
      rw [hd.g_s _ _ _ _ (hg i hi), mul_comm]
      rfl
    · refine Finset.sum_congr rfl fun b _ => ?_
      rw [hd.g_x _ _ _ _ (hg i hi), mul_comm]
      rfl
  · intro i hi a
    have h1 := (hf i hi).hasFDerivAt
    set G := fderiv ℝ (fAll M.f) (fPoint N i w) with hG
    let p1 : ((S ⊕ X) ⊕ (S ⊕ X) → ℝ) →L[ℝ] (S → ℝ) := ContinuousLinearMap.pi fun s => ContinuousLinearMap.proj (.inl (.inl s))
    let p2 : ((S ⊕ X) ⊕ (S ⊕ X) → ℝ) →L[ℝ] (X → ℝ) := ContinuousLinearMap.pi fun s => ContinuousLinearMap.proj (.inl (.inr s))
    let p3 : ((S ⊕ X) ⊕ (S ⊕ X) → ℝ) →L[ℝ] (S → ℝ) := ContinuousLinearMap.pi fun s => ContinuousLinearMap.proj (.inr (.inl s))
    let p4 : ((S ⊕ X) ⊕ (S ⊕ X) → ℝ) →L[ℝ] (X → ℝ) := ContinuousLinearMap.pi fun s => ContinuousLinearMap.proj (.inr (.inr s))
    have h2 : HasFDerivAt (fun z : (S ⊕ X) ⊕ (S ⊕ X) → ℝ => (exoOf N w.2.2 i, p1 z, p2 z, exoOf N w.2.2 (i + 1), p3 z, p4 z))
        ((0 : ((S ⊕ X) ⊕ (S ⊕ X) → ℝ) →L[ℝ] (E → ℝ)).prod (p1.prod (p2.prod
          ((0 : ((S ⊕ X) ⊕ (S ⊕ X) → ℝ) →L[ℝ] (E → ℝ)).prod (p3.prod p4)))))
        (Sum.elim (pathOf N w.1 i) (pathOf N w.1 (i + 1))) :=
      (hasFDerivAt_const _ _).prodMk (p1.hasFDerivAt.prodMk (p2.hasFDerivAt.prodMk ((hasFDerivAt_const _ _).prodMk
        (p3.hasFDerivAt.prodMk p4.hasFDerivAt))))
    have h3 := (HasFDerivAt.comp (Sum.elim (pathOf N w.1 i) (pathOf N w.1 (i + 1))) (g := fAll M.f) h1 h2)
    have h4 := hasFDerivAt_pi'.1 h3 a
    refine ⟨_, h4, fun h => ?_⟩
    have e1 : G (0, p1 h, p2 h, 0, p3 h, p4 h) =
        G.comp (ContinuousLinearMap.prod 0 (ContinuousLinearMap.prod (.id ℝ (S → ℝ)) 0)) (p1 h)
        + G.comp (ContinuousLinearMap.prod 0 (ContinuousLinearMap.prod 0 (ContinuousLinearMap.prod (.id ℝ (X → ℝ)) 0))) (p2 h)
        + (G.comp (ContinuousLinearMap.prod 0 (ContinuousLinearMap.prod 0 (ContinuousLinearMap.prod 0 (ContinuousLinearMap.prod 0
            (ContinuousLinearMap.prod (.id ℝ (S → ℝ)) 0))))) (p3 h)
        + G.comp (ContinuousLinearMap.prod 0 (ContinuousLinearMap.prod 0 (ContinuousLinearMap.prod 0 (ContinuousLinearMap.prod 0
            (ContinuousLinearMap.prod 0 (.id ℝ (X → ℝ))))))) (p4 h)) := by
      simp only [ContinuousLinearMap.comp_apply, ← map_add]
      congr 1
      simp
    have e2 : ((ContinuousLinearMap.proj (R := ℝ) (φ := fun _ : X => ℝ) a).comp (G.comp
        ((0 : ((S ⊕ X) ⊕ (S ⊕ X) → ℝ) →L[ℝ] (E → ℝ)).prod (p1.prod (p2.prod
          ((0 : ((S ⊕ X) ⊕ (S ⊕ X) → ℝ) →L[ℝ] (E → ℝ)).prod (p3.prod p4))))))) h
        = G (0, p1 h, p2 h, 0, p3 h, p4 h) a := rfl
    rw [e2, e1, sum_coord _ (p1 h), sum_coord _ (p2 h), sum_coord _ (p3 h), sum_coord _ (p4 h), Fintype.sum_sum_type,
      Fintype.sum_sum_type, Fintype.sum_sum_type]
    simp only [Pi.add_apply, Finset.sum_apply, Pi.smul_apply, smul_eq_mul, Sum.elim_inl, Sum.elim_inr, pfBlocks]
    congr 1
    · congr 1
      · refine Finset.sum_congr rfl fun b _ => ?_
        rw [hd.f_s _ _ _ _ _ _ (hf i hi), mul_comm]
        rfl
      · refine Finset.sum_congr rfl fun b _ => ?_
        rw [hd.f_x _ _ _ _ _ _ (hf i hi), mul_comm]
        rfl
    · congr 1
      · refine Finset.sum_congr rfl fun b _ => ?_
        rw [hd.f_S _ _ _ _ _ _ (hf i hi), mul_comm]
        rfl
      · refine Finset.sum_congr rfl fun b _ => ?_
        rw [hd.f_X _ _ _ _ _ _ (hf i hi), mul_comm]
        rfl

/-- The stacked Jacobian is the derivative of the stacked system with respect to the unknowns. -/
theorem pfPhi_jacobian (M : PFModel ℝ S X E) (d : PFDiff S X E) (hd : d.IsDerivative M) (N : ℕ) (hN : 2 ≤ N)
    (w : PFVec N S X × PFData N S E) (hg : ∀ i, i + 1 < N → DifferentiableAt ℝ (gAll M.g) (gPoint N i w))
    (hf : ∀ i, i + 1 < N → DifferentiableAt ℝ (fAll M.f) (fPoint N i w)) (hΦ : DifferentiableAt ℝ (pfPhi M N) w)
    (v : PFVec N S X) (ic : Fin N × (S ⊕ X)) :
    fderiv ℝ (pfPhi M N) w (v, 0) ic
      = ∑ jc : Fin N × (S ⊕ X), detJac (pfBlocks d (pathOf N w.1) (exoOf N w.2.2)) N ic.1 ic.2 jc.1 jc.2 * v jc := by
  obtain ⟨res, hres, hder⟩ := C39_jacobian_is_derivative M.g M.f N hN w.1 w.2.1 (exoOf N w.2.2) _
    (blocks_are_derivs M d hd N w hg hf)
  obtain ⟨L, hL, hLe⟩ := hder ic.1 ic.2 ic.1.2
  have h1 : HasFDerivAt (fun u : PFVec N S X => (u, w.2)) (ContinuousLinearMap.inl ℝ (PFVec N S X) (PFData N S E)) w.1 :=
    hasFDerivAt_prodMk_left _ _
  have h2 : HasFDerivAt (fun u : PFVec N S X => pfPhi M N (u, w.2)) ((fderiv ℝ (pfPhi M N) w).comp (.inl ℝ _ _)) w.1 :=
    HasFDerivAt.comp w.1 (g := pfPhi M N) hΦ.hasFDerivAt h1
  have h3 := hasFDerivAt_pi'.1 h2 ic
  have e : (fun u => pfPhi M N (u, w.2) ic) = fun u => res u ic.1 ic.2 := by
    funext u
    simp only [pfPhi, pfRes, hres]
  rw [e] at h3
  have := h3.unique hL
  have h4 := congrArg (fun T : PFVec N S X →L[ℝ] ℝ => T v) this
  simp only [hLe] at h4
  exact h4

/-- The entries of a path that matter. -/
def piOf (N : ℕ) (x : ℕ → S ⊕ X → ℝ) : PFVec N S X := fun ic => x ic.1 ic.2

theorem pathOf_piOf {N : ℕ} (x : ℕ → S ⊕ X → ℝ) {i : ℕ} (hi : i < N) : pathOf N (piOf N x) i = x i := by
  funext c
  simp [pathOf, piOf, hi]

theorem stOf_piOf {N : ℕ} (x : ℕ → S ⊕ X → ℝ) {i : ℕ} (hi : i < N) : stOf (pathOf N (piOf N x)) i = stOf x i :=
  funext fun a => congrFun (pathOf_piOf x hi) (.inl a)

theorem ctOf_piOf {N : ℕ} (x : ℕ → S ⊕ X → ℝ) {i : ℕ} (hi : i < N) : ctOf (pathOf N (piOf N x)) i = ctOf x i :=
  funext fun a => congrFun (pathOf_piOf x hi) (.inr a)

/-- The data of a call. -/
def dataOf (N : ℕ) (start : S → ℝ) (m : ℕ → E → ℝ) : PFData N S E := (start, fun t => m t)

theorem exoOf_dataOf {N : ℕ} (start : S → ℝ) (m : ℕ → E → ℝ) {i : ℕ} (hi : i < N) :
    exoOf N (dataOf N start m).2 i = m i := by
  simp [exoOf, dataOf, hi]

theorem gPoint_of {N : ℕ} (x : ℕ → S ⊕ X → ℝ) (start : S → ℝ) (m : ℕ → E → ℝ) {i : ℕ} (hi : i + 1 < N) :
    gPoint N i (piOf N x, dataOf N start m) = (m i, stOf x i, ctOf x i, m (i + 1)) := by
  simp only [gPoint, stOf_piOf x (show i < N by omega), ctOf_piOf x (show i < N by omega), exoOf_dataOf start m (show i < N by omega),
    exoOf_dataOf start m hi]

theorem fPoint_of {N : ℕ} (x : ℕ → S ⊕ X → ℝ) (start : S → ℝ) (m : ℕ → E → ℝ) {i : ℕ} (hi : i + 1 < N) :
    fPoint N i (piOf N x, dataOf N start m)
      = (m i, stOf x i, ctOf x i, m (i + 1), stOf x (i + 1), ctOf x (i + 1)) := by
  simp only [fPoint, stOf_piOf x (show i < N by omega), ctOf_piOf x (show i < N by omega), stOf_piOf x hi, ctOf_piOf x hi,
    exoOf_dataOf start m (show i < N by omega), exoOf_dataOf start m hi]

/-- Residuals only depend on the first `N` periods. -/
theorem pfPhi_of (M : PFModel ℝ S X E) {N : ℕ} (hN : 2 ≤ N) (x : ℕ → S ⊕ X → ℝ) (start : S → ℝ) (m : ℕ → E → ℝ) :
    pfPhi M N (piOf N x, dataOf N start m) = piOf N (pfRes M N x start m) := by
  funext ⟨⟨i, hi⟩, c⟩
  obtain ⟨a1, a2, a3, a4⟩ := pfRes_entries M N hN (pathOf N (piOf N x)) start (exoOf N (dataOf N start m).2)
  obtain ⟨b1, b2, b3, b4⟩ := pfRes_entries M N hN x start m
  change pfRes M N (pathOf N (piOf N x)) start (exoOf N (dataOf N start m).2) i c = pfRes M N x start m i c
  rcases c with a | b
  · rcases i with _ | i
    · rw [a1, b1, pathOf_piOf x hi]
    · rw [a2 i a hi, b2 i a hi, pathOf_piOf x hi]
      have := congrArg (fun z => gAll M.g z a) (gPoint_of x start m hi)
      exact congrArg (· - x (i + 1) (.inl a)) this
  · by_cases h : i + 1 < N
    · rw [a3 i b h, b3 i b h]
      exact congrArg (fun z => fAll M.f z b) (fPoint_of x start m h)
    · obtain rfl : i = N - 1 := by omega
      rw [a4, b4, pathOf_piOf x hi, pathOf_piOf x (show N - 2 < N by omega)]

/-- So does the Jacobian. -/
theorem detJac_of (d : PFDiff S X E) {N : ℕ} (hN : 2 ≤ N) (x : ℕ → S ⊕ X → ℝ) (start : S → ℝ) (m : ℕ → E → ℝ)
    (ic : Fin N × (S ⊕ X)) (j : ℕ) (c' : S ⊕ X) :
    detJac (pfBlocks d (pathOf N (piOf N x)) (exoOf N (dataOf N start m).2)) N ic.1 ic.2 j c'
      = detJac (pfBlocks d x m) N ic.1 ic.2 j c' := by
  obtain ⟨⟨i, hi⟩, c⟩ := ic
  have hst : ∀ k, k < N → stOf (pathOf N (piOf N x)) k = stOf x k := fun k hk => stOf_piOf x hk
  have hct : ∀ k, k < N → ctOf (pathOf N (piOf N x)) k = ctOf x k := fun k hk => ctOf_piOf x hk
  rcases c with a | b
  · rcases i with _ | i
    · rw [detJac_initial, detJac_initial]
    · simp only
      rw [detJac_transition _ N hN i hi, detJac_transition _ N hN i hi]
      simp only [pfBlocks, hst i (by omega), hct i (by omega), exoOf_dataOf start m (show i < N by omega),
        exoOf_dataOf start m hi]
  · by_cases h : i + 1 < N
    · simp only
      rw [detJac_arbitrage _ N hN i h, detJac_arbitrage _ N hN i h]
      simp only [pfBlocks, hst i hi, hct i hi, hst (i + 1) h, hct (i + 1) h, exoOf_dataOf start m hi, exoOf_dataOf start m h]
    · obtain rfl : i = N - 1 := by omega
      simp only
      rw [detJac_terminal _ N hN, detJac_terminal _ N hN]

/-- `abs(v).max()` is the norm. -/
theorem pfNorm_eq (N : ℕ) (v : ℕ → S ⊕ X → ℝ) : pfNorm N v = ‖piOf N v‖ := by
  unfold pfNorm
  apply le_antisymm
  · rw [Finset.fold_max_le]
    exact ⟨norm_nonneg _, fun ic _ => norm_le_pi_norm (piOf N v) ic⟩
  · refine (pi_norm_le_iff_of_nonneg ?_).2 fun ic => ?_
    · rw [Finset.le_fold_max]
      exact .inl le_rfl
    · rw [Finset.le_fold_max]
      exact .inr ⟨ic, Finset.mem_univ _, le_rfl⟩

/-- The rows of the linearised system. -/
theorem jac_rows (D : PFBlocks ℝ S X) (N : ℕ) (hN : 2 ≤ N) (v : ℕ → S ⊕ X → ℝ) :
    (∀ a, ∑ jc : Fin N × (S ⊕ X), detJac D N 0 (.inl a) jc.1 jc.2 * v jc.1 jc.2 = -v 0 (.inl a)) ∧
    (∀ i, i + 1 < N → ∀ a, ∑ jc : Fin N × (S ⊕ X), detJac D N (i + 1) (.inl a) jc.1 jc.2 * v jc.1 jc.2
      = ∑ b, D.SS_s i a b * v i (.inl b) + ∑ b, D.SS_x i a b * v i (.inr b) - v (i + 1) (.inl a)) ∧
    (∀ i, i + 1 < N → ∀ b, ∑ jc : Fin N × (S ⊕ X), detJac D N i (.inr b) jc.1 jc.2 * v jc.1 jc.2
      = ∑ a, D.R_s i b a * v i (.inl a) + ∑ a, D.R_x i b a * v i (.inr a) +
        (∑ a, D.R_S i b a * v (i + 1) (.inl a) + ∑ a, D.R_X i b a * v (i + 1) (.inr a))) ∧
    (∀ b, ∑ jc : Fin N × (S ⊕ X), detJac D N (N - 1) (.inr b) jc.1 jc.2 * v jc.1 jc.2
      = v (N - 2) (.inr b) - v (N - 1) (.inr b)) := by
  have one : ∀ (k : ℕ) (hk : k < N) (c : S ⊕ X), ∑ jc : Fin N × (S ⊕ X),
      (if (jc.1 : ℕ) = k ∧ jc.2 = c then (1 : ℝ) else 0) * v jc.1 jc.2 = v k c := by
    intro k hk c
    rw [Finset.sum_eq_single (⟨k, hk⟩, c)]
    · simp
    · rintro ⟨j, c'⟩ _ hne
      rw [if_neg, zero_mul]
      rintro ⟨h1, h2⟩
      exact hne (Prod.ext (Fin.ext h1) h2)
    · intro h
      exact absurd (Finset.mem_univ _) h
  have row : ∀ (k : ℕ) (hk : k < N) (w : S ⊕ X → ℝ), ∑ jc : Fin N × (S ⊕ X),
      (if (jc.1 : ℕ) = k then w jc.2 else 0) * v jc.1 jc.2 = ∑ c, w c * v k c := by
    intro k hk w
    rw [Fintype.sum_prod_type, Finset.sum_eq_single ⟨k, hk⟩]
    · simp
    · intro j _ hne
      refine Finset.sum_eq_zero fun c _ => ?_
      rw [if_neg, zero_mul]
      exact fun h => hne (Fin.ext h)
    · intro h
      exact absurd (Finset.mem_univ _) h
  refine ⟨fun a => ?_, fun i hi a => ?_, fun i hi b => ?_, fun b => ?_⟩
  · have h1 := one 0 (by omega) (.inl a)
    rw [← h1, ← Finset.sum_neg_distrib]
    refine Finset.sum_congr rfl fun jc _ => ?_
    rw [detJac_initial]
    split_ifs <;> simp
  · have h1 := one (i + 1) hi (.inl a)
    have h2 := row i (by omega) (Sum.elim (D.SS_s i a) (D.SS_x i a))
    rw [Fintype.sum_sum_type] at h2
    simp only [Sum.elim_inl, Sum.elim_inr] at h2
    rw [← h2, ← h1, ← Finset.sum_sub_distrib]
    refine Finset.sum_congr rfl fun jc _ => ?_
    rw [detJac_transition D N hN i hi, sub_mul]
  · have h1 := row i (by omega) (Sum.elim (D.R_s i b) (D.R_x i b))
    have h2 := row (i + 1) hi (Sum.elim (D.R_S i b) (D.R_X i b))
    rw [Fintype.sum_sum_type] at h1 h2
    simp only [Sum.elim_inl, Sum.elim_inr] at h1 h2
    rw [← h2, ← h1, ← Finset.sum_add_distrib]
    refine Finset.sum_congr rfl fun jc _ => ?_
    rw [detJac_arbitrage D N hN i hi, add_mul]
  · have h1 := one (N - 1) (by omega) (.inr b)
    have h2 := one (N - 2) (by omega) (.inr b)
    rw [← h1, ← h2, ← Finset.sum_sub_distrib]
    refine Finset.sum_congr rfl fun jc _ => ?_
    rw [detJac_terminal D N hN, sub_mul]

end

end Dolo
