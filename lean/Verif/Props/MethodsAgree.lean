import Verif.Model.MethodsAgree
import Verif.Props.Perturbation
import Verif.Props.TimeIteration
import Verif.Props.PerfectForesight
import Verif.Props.Simulation

/-!
# C121: the solution methods agree on linear models
-/

set_option linter.unusedSectionVars false

namespace Dolo

open Matrix

/-! ### Specification -/

section spec
variable {K : Type} [Field K] {nm ns nx : ℕ}

/-- The arbitrage equations of the linear model with derivatives `dv` around the steady state `(mb, sb, xb)`. -/
def linF (dv : Derivs nm ns nx K) (mb : Fin nm → K) (sb : Fin ns → K) (xb : Fin nx → K)
    (m : Fin nm → K) (s : Fin ns → K) (x : Fin nx → K) (M : Fin nm → K) (S : Fin ns → K) (X : Fin nx → K) :
    Fin nx → K :=
  dv.f_m *ᵥ (m - mb) + dv.f_s *ᵥ (s - sb) + dv.f_x *ᵥ (x - xb) + dv.f_M *ᵥ (M - mb) + dv.f_S *ᵥ (S - sb)
    + dv.f_X *ᵥ (X - xb)

/-- Its transition equations. -/
def linG (dv : Derivs nm ns nx K) (mb : Fin nm → K) (sb : Fin ns → K) (xb : Fin nx → K)
    (m : Fin nm → K) (s : Fin ns → K) (x : Fin nx → K) (M : Fin nm → K) : Fin ns → K :=
  sb + (dv.g_m *ᵥ (m - mb) + dv.g_s *ᵥ (s - sb) + dv.g_x *ᵥ (x - xb) + dv.g_M *ᵥ (M - mb))

/-- The conditional mean of the discretized process at node `i` is the one of the process given to `perturb`: with iid
shocks it is `mb`, where the process is supposed to be; with a VAR(1) it is `mb + A (m - mb)`. -/
def MeanIs (process : ExoProc nm K) (mb : Fin nm → K) (dp : DProc K) (i : ℕ) : Prop :=
  ∑ j ∈ Finset.range (dp.nInodes i), dp.iweight i j = 1 ∧
  match process with
  | .iid => headVec nm (dp.node i) = mb ∧
      ∑ j ∈ Finset.range (dp.nInodes i), dp.iweight i j • (headVec nm (dp.inode i j) - mb) = 0
  | .var1 (some A) =>
      ∑ j ∈ Finset.range (dp.nInodes i), dp.iweight i j • (headVec nm (dp.inode i j) - mb)
        = A *ᵥ (headVec nm (dp.node i) - mb)
  | _ => False

/-- The generalised Schur decomposition used by `perturb` is one, split between states and controls. -/
def QZOK [LinearOrder K] (qz : ∀ ns nx : ℕ, Matrix (Fin ns ⊕ Fin nx) (Fin ns ⊕ Fin nx) K →
      Matrix (Fin ns ⊕ Fin nx) (Fin ns ⊕ Fin nx) K → K → QZ (Fin ns ⊕ Fin nx) K)
    (process : ExoProc nm K) (dv : Derivs nm ns nx K) : Prop :=
  match process with
  | .iid =>
    let d := qz ns nx (pencilA dv.f_S dv.f_X) (pencilB dv.g_s dv.g_x dv.f_s dv.f_x) (1 - 1 / 10 ^ 8)
    d.Correct (pencilA dv.f_S dv.f_X) (pencilB dv.g_s dv.g_x dv.f_s dv.f_x) ∧ d.Split
  | .var1 (some A) =>
    let e := dv.extend A
    let d := qz (nm + ns) nx (pencilA e.f_S e.f_X) (pencilB e.g_s e.g_x e.f_s e.f_x) (1 - 1 / 10 ^ 8)
    d.Correct (pencilA e.f_S e.f_X) (pencilB e.g_s e.g_x e.f_s e.f_x) ∧ d.Split
  | _ => True

end spec

section
variable {K : Type} [Field K] [LinearOrder K] [IsStrictOrderedRing K] {nm ns nx : ℕ}

/-- The rule in closed form: there is a loading on the exogenous variables, zero for iid shocks. -/
theorem rule_closed {solve : MatSolver K} (hsolve : solve.Correct)
    (qz : ∀ ns nx : ℕ, Matrix (Fin ns ⊕ Fin nx) (Fin ns ⊕ Fin nx) K →
      Matrix (Fin ns ⊕ Fin nx) (Fin ns ⊕ Fin nx) K → K → QZ (Fin ns ⊕ Fin nx) K)
    (cut : WithTop K → WithTop K → K) (process : ExoProc nm K) (dv : Derivs nm ns nx K) (hqz : QZOK qz process dv)
    (mb : Fin nm → K) (sb : Fin ns → K) (xb : Fin nx → K) (t : BiTaylor nm ns nx K)
    (h : perturb1 solve qz cut process dv mb sb xb = .ok t) :
    ∃ C_m : Matrix (Fin nx) (Fin nm) K,
      (process = .iid → C_m = 0) ∧
      (∀ m s, t.evalMS (.vec m) (.vec s) = .ok (.vec (xb + C_m *ᵥ (m - mb) + t.C_s *ᵥ (s - sb)))) ∧
      ∀ (D : Fin nm → K), (process = .iid → D = 0) → ∀ (m : Fin nm → K) (s : Fin ns → K),
        (process = .iid → m = 0) → (∀ A, process = .var1 (some A) → D = A *ᵥ m) →
        let x := C_m *ᵥ m + t.C_s *ᵥ s
        let S := dv.g_m *ᵥ m + dv.g_s *ᵥ s + dv.g_x *ᵥ x + dv.g_M *ᵥ D
        let X := C_m *ᵥ D + t.C_s *ᵥ S
        dv.f_m *ᵥ m + dv.f_s *ᵥ s + dv.f_x *ᵥ x + dv.f_M *ᵥ D + dv.f_S *ᵥ S + dv.f_X *ᵥ X = 0 := by
  cases process with
  | iid =>
    obtain ⟨h1, h2, h3, h4, h5⟩ := C77_iid hsolve qz cut dv hqz mb sb xb t h
    refine ⟨0, fun _ => rfl, fun m s => ?_, fun D hD m s hm _ => ?_⟩
    · rw [((C35_points t).2.1 h4 m s).1, h2, h3]
      simp
    · rw [hD rfl, hm rfl]
      have := h5 s
      simpa using this
  | var1 A =>
    cases A with
    | none => cases h
    | some A =>
      obtain ⟨h1, h2, h3, C_m, h4, h5⟩ := C77_var1_partial hsolve qz cut A dv hqz mb sb xb t h
      refine ⟨C_m, (fun h => by cases h), fun m s => ?_, fun D _ m s _ hA => ?_⟩
      · rw [(C35_points t).1 C_m h4 m s, h1, h2, h3]
      · rw [hA A rfl]
        exact h5 m s
  | other => cases h

/-- The expectation of an affine function. -/
private theorem sum_affine {n p q : ℕ} (w : ℕ → K) (hw : ∑ j ∈ Finset.range n, w j = 1) (d : ℕ → Fin p → K)
    (D : Fin p → K) (hD : ∑ j ∈ Finset.range n, w j • d j = D) (a : Fin q → K) (L : Matrix (Fin q) (Fin p) K)
    (k : Fin q) : ∑ j ∈ Finset.range n, w j * (a + L *ᵥ d j) k = (a + L *ᵥ D) k := by
  rw [← hD, Matrix.mulVec_sum]
  simp only [Pi.add_apply, mul_add, Finset.sum_add_distrib, ← Finset.sum_mul, hw, one_mul, Finset.sum_apply,
    Matrix.mulVec_smul, Pi.smul_apply, smul_eq_mul]

/-- The residuals with a rule `xb + C_m (m - mb) + C_s (s - sb)`, in terms of the mean `D` of tomorrow's exogenous
variables. -/
private theorem residual_value (dv : Derivs nm ns nx K)
    (mb : Fin nm → K) (sb : Fin ns → K) (xb : Fin nx → K) (C_m : Matrix (Fin nx) (Fin nm) K)
    (C_s : Matrix (Fin nx) (Fin ns) K)
    (f : (m s x M S X : ℕ → K) → ℕ → K) (g : (m s x M : ℕ → K) → ℕ → K)
    (hf : ∀ m s x M S X (k : Fin nx), f m s x M S X k
      = linF dv mb sb xb (headVec nm m) (headVec ns s) (headVec nx x) (headVec nm M) (headVec ns S) (headVec nx X) k)
    (hg : ∀ m s x M (a : Fin ns), g m s x M a
      = linG dv mb sb xb (headVec nm m) (headVec ns s) (headVec nx x) (headVec nm M) a)
    (s : ℕ → ℕ → K) (x : Table K) (dr : ℕ → ℕ → (ℕ → K) → ℕ → K) (dp : DProc K) (i n : ℕ)
    (hw : ∑ j ∈ Finset.range (dp.nInodes i), dp.iweight i j = 1) (D : Fin nm → K)
    (hDsum : ∑ j ∈ Finset.range (dp.nInodes i), dp.iweight i j • (headVec nm (dp.inode i j) - mb) = D)
    (hx' : headVec nx (x i n) - xb = C_m *ᵥ (headVec nm (dp.node i) - mb) + C_s *ᵥ (headVec ns (s n) - sb))
    (hdr' : ∀ j < dp.nInodes i, ∀ S, headVec nx (dr i j S) - xb
      = C_m *ᵥ (headVec nm (dp.inode i j) - mb) + C_s *ᵥ (headVec ns S - sb)) (k : ℕ) (hk : k < nx) :
    residualsSimple f g s x dr dp i n k =
      (let m := headVec nm (dp.node i) - mb
       let v := headVec ns (s n) - sb
       let x := C_m *ᵥ m + C_s *ᵥ v
       let S := dv.g_m *ᵥ m + dv.g_s *ᵥ v + dv.g_x *ᵥ x + dv.g_M *ᵥ D
       let X := C_m *ᵥ D + C_s *ᵥ S
       dv.f_m *ᵥ m + dv.f_s *ᵥ v + dv.f_x *ᵥ x + dv.f_M *ᵥ D + dv.f_S *ᵥ S + dv.f_X *ᵥ X) ⟨k, hk⟩ := by
  rw [C75_residuals_simple]
  dsimp only
  set dm := headVec nm (dp.node i) - mb with hdm
  set ds := headVec ns (s n) - sb with hds
  -- each term is affine in tomorrow's exogenous variables
  set c := dv.g_m *ᵥ dm + dv.g_s *ᵥ ds + dv.g_x *ᵥ (C_m *ᵥ dm + C_s *ᵥ ds) with hc
  set a := dv.f_m *ᵥ dm + dv.f_s *ᵥ ds + dv.f_x *ᵥ (C_m *ᵥ dm + C_s *ᵥ ds) + dv.f_S *ᵥ c
    + dv.f_X *ᵥ (C_s *ᵥ c) with ha
  set L := dv.f_M + dv.f_S * dv.g_M + dv.f_X * (C_m + C_s * dv.g_M) with hL
  have hterm : ∀ v : Fin nm → K, dv.f_m *ᵥ dm + dv.f_s *ᵥ ds + dv.f_x *ᵥ (C_m *ᵥ dm + C_s *ᵥ ds) + dv.f_M *ᵥ v
      + dv.f_S *ᵥ (c + dv.g_M *ᵥ v) + dv.f_X *ᵥ (C_m *ᵥ v + C_s *ᵥ (c + dv.g_M *ᵥ v)) = a + L *ᵥ v := by
    intro v
    simp only [ha, hL, Matrix.add_mulVec, Matrix.mulVec_add, Matrix.mulVec_mulVec, Matrix.mul_add]
    abel
  have hsum := sum_affine (fun j => dp.iweight i j) hw (fun j => headVec nm (dp.inode i j) - mb) D hDsum a L ⟨k, hk⟩
  rw [hterm D]
  refine Eq.trans ?_ hsum
  refine Finset.sum_congr rfl fun j hj => ?_
  have hj' := Finset.mem_range.1 hj
  congr 1
  set S := g (dp.node i) (s n) (x i n) (dp.inode i j) with hS
  have hS' : headVec ns S - sb = c + dv.g_M *ᵥ (headVec nm (dp.inode i j) - mb) := by
    have e : headVec ns S = linG dv mb sb xb (headVec nm (dp.node i)) (headVec ns (s n)) (headVec nx (x i n))
        (headVec nm (dp.inode i j)) := by
      funext b
      exact hg _ _ _ _ b
    rw [e, linG, hx', hc, hdm, hds]
    abel
  have e := hf (dp.node i) (s n) (x i n) (dp.inode i j) S (dr i j S) ⟨k, hk⟩
  rw [show f (dp.node i) (s n) (x i n) (dp.inode i j) S (dr i j S) k = _ from e, linF, hx', hdr' j hj' S, hS', hterm]

/-- **C121, residuals.**  For a linear model, and a discretized process with the right conditional mean at node `i`: if
today's controls at a grid point and the future controls are those of the rule returned by `perturb`, the residuals of
`time_iteration` (`residuals_simple`) are zero there. -/
theorem C121_residuals_partial {solve : MatSolver K} (hsolve : solve.Correct)
    (qz : ∀ ns nx : ℕ, Matrix (Fin ns ⊕ Fin nx) (Fin ns ⊕ Fin nx) K →
      Matrix (Fin ns ⊕ Fin nx) (Fin ns ⊕ Fin nx) K → K → QZ (Fin ns ⊕ Fin nx) K)
    (cut : WithTop K → WithTop K → K) (process : ExoProc nm K) (dv : Derivs nm ns nx K) (hqz : QZOK qz process dv)
    (mb : Fin nm → K) (sb : Fin ns → K) (xb : Fin nx → K) (t : BiTaylor nm ns nx K)
    (h : perturb1 solve qz cut process dv mb sb xb = .ok t)
    (f : (m s x M S X : ℕ → K) → ℕ → K) (g : (m s x M : ℕ → K) → ℕ → K)
    (hf : ∀ m s x M S X (k : Fin nx), f m s x M S X k
      = linF dv mb sb xb (headVec nm m) (headVec ns s) (headVec nx x) (headVec nm M) (headVec ns S) (headVec nx X) k)
    (hg : ∀ m s x M (a : Fin ns), g m s x M a
      = linG dv mb sb xb (headVec nm m) (headVec ns s) (headVec nx x) (headVec nm M) a)
    (s : ℕ → ℕ → K) (x : Table K) (dr : ℕ → ℕ → (ℕ → K) → ℕ → K) (dp : DProc K) (i n : ℕ)
    (hp : MeanIs process mb dp i)
    (hx : t.evalMS (.vec (headVec nm (dp.node i))) (.vec (headVec ns (s n))) = .ok (.vec (headVec nx (x i n))))
    (hdr : ∀ j < dp.nInodes i, ∀ S, t.evalMS (.vec (headVec nm (dp.inode i j))) (.vec (headVec ns S))
      = .ok (.vec (headVec nx (dr i j S)))) (k : ℕ) (hk : k < nx) :
    residualsSimple f g s x dr dp i n k = 0 := by
  obtain ⟨C_m, hC0, hev, hlin⟩ := rule_closed hsolve qz cut process dv hqz mb sb xb t h
  rw [hev] at hx
  have hx' : headVec nx (x i n) - xb = C_m *ᵥ (headVec nm (dp.node i) - mb) + t.C_s *ᵥ (headVec ns (s n) - sb) := by
    injection hx with hx
    injection hx with hx
    rw [← hx]; abel
  have hdr' : ∀ j < dp.nInodes i, ∀ S, headVec nx (dr i j S) - xb
      = C_m *ᵥ (headVec nm (dp.inode i j) - mb) + t.C_s *ᵥ (headVec ns S - sb) := by
    intro j hj S
    have e := hdr j hj S
    rw [hev] at e
    injection e with e
    injection e with e
    rw [← e]; abel
  -- the mean of tomorrow's exogenous variables
  obtain ⟨hw, hm⟩ := hp
  obtain ⟨D, hDsum, hDiid, hmiid, hDvar⟩ : ∃ D : Fin nm → K,
      ∑ j ∈ Finset.range (dp.nInodes i), dp.iweight i j • (headVec nm (dp.inode i j) - mb) = D ∧
      (process = .iid → D = 0) ∧ (process = .iid → headVec nm (dp.node i) - mb = 0) ∧
      ∀ A, process = .var1 (some A) → D = A *ᵥ (headVec nm (dp.node i) - mb) := by
    refine ⟨_, rfl, ?_, ?_, ?_⟩
    · rintro rfl; exact hm.2
    · rintro rfl; rw [hm.1]; simp
    · rintro A rfl; exact hm
  rw [residual_value dv mb sb xb C_m t.C_s f g hf hg s x dr dp i n hw D hDsum hx' hdr' k hk]
  exact congrFun (hlin D hDiid _ _ hmiid hDvar) ⟨k, hk⟩

/-- **C121 fails for iid shocks with a nonzero mean.**  With iid shocks, the only node of the discretized process is zero
whatever the calibrated value `mb` of the shocks.  The residuals of `time_iteration` at the rule of `perturb` are then
`-(f_m + (f_S + f_X C) g_m) mb`, where `x = xb + C (s - sb)` is the rule, instead of zero. -/
theorem C121_iid_residuals {solve : MatSolver K} (hsolve : solve.Correct)
    (qz : ∀ ns nx : ℕ, Matrix (Fin ns ⊕ Fin nx) (Fin ns ⊕ Fin nx) K →
      Matrix (Fin ns ⊕ Fin nx) (Fin ns ⊕ Fin nx) K → K → QZ (Fin ns ⊕ Fin nx) K)
    (cut : WithTop K → WithTop K → K) (dv : Derivs nm ns nx K) (hqz : QZOK qz .iid dv)
    (mb : Fin nm → K) (sb : Fin ns → K) (xb : Fin nx → K) (t : BiTaylor nm ns nx K)
    (h : perturb1 solve qz cut .iid dv mb sb xb = .ok t)
    (f : (m s x M S X : ℕ → K) → ℕ → K) (g : (m s x M : ℕ → K) → ℕ → K)
    (hf : ∀ m s x M S X (k : Fin nx), f m s x M S X k
      = linF dv mb sb xb (headVec nm m) (headVec ns s) (headVec nx x) (headVec nm M) (headVec ns S) (headVec nx X) k)
    (hg : ∀ m s x M (a : Fin ns), g m s x M a
      = linG dv mb sb xb (headVec nm m) (headVec ns s) (headVec nx x) (headVec nm M) a)
    (q : ℕ) (w : ℕ → K) (pts : ℕ → ℕ → K) (hw : ∑ j ∈ Finset.range q, w j = 1)
    (hmean : ∑ j ∈ Finset.range q, w j • headVec nm (pts j) = mb)
    (s : ℕ → ℕ → K) (x : Table K) (dr : ℕ → ℕ → (ℕ → K) → ℕ → K) (n : ℕ)
    (hx : t.evalMS (.vec 0) (.vec (headVec ns (s n))) = .ok (.vec (headVec nx (x 0 n))))
    (hdr : ∀ j < q, ∀ S, t.evalMS (.vec (headVec nm (pts j))) (.vec (headVec ns S)) = .ok (.vec (headVec nx (dr 0 j S))))
    (k : Fin nx) :
    residualsSimple f g s x dr (iidDProc q w pts) 0 n k
      = -((dv.f_m + (dv.f_S + dv.f_X * t.C_s) * dv.g_m) *ᵥ mb) k := by
  obtain ⟨C_m, hC0, hev, hlin⟩ := rule_closed hsolve qz cut .iid dv hqz mb sb xb t h
  obtain rfl := hC0 rfl
  have hnode : headVec nm ((iidDProc q w pts).node 0) = 0 := rfl
  have hx' : headVec nx (x 0 n) - xb
      = (0 : Matrix (Fin nx) (Fin nm) K) *ᵥ (headVec nm ((iidDProc q w pts).node 0) - mb)
        + t.C_s *ᵥ (headVec ns (s n) - sb) := by
    rw [hev] at hx
    injection hx with hx
    injection hx with hx
    rw [← hx]; simp
  have hdr' : ∀ j < q, ∀ S, headVec nx (dr 0 j S) - xb
      = (0 : Matrix (Fin nx) (Fin nm) K) *ᵥ (headVec nm (pts j) - mb) + t.C_s *ᵥ (headVec ns S - sb) := by
    intro j hj S
    have e := hdr j hj S
    rw [hev] at e
    injection e with e
    injection e with e
    rw [← e]; simp
  have hD : ∑ j ∈ Finset.range q, w j • (headVec nm (pts j) - mb) = 0 := by
    simp only [smul_sub, Finset.sum_sub_distrib, hmean, ← Finset.sum_smul, hw, one_smul, sub_self]
  rw [residual_value dv mb sb xb 0 t.C_s f g hf hg s x dr (iidDProc q w pts) 0 n hw 0 hD hx' hdr' k k.2, hnode]
  have e := congrFun (hlin 0 (fun _ => rfl) 0 (headVec ns (s n) - sb) (fun _ => rfl) (fun A hA => by cases hA)) k
  simp only [Matrix.mulVec_zero, Matrix.zero_mulVec, zero_add, add_zero, zero_sub] at e ⊢
  simp only [Matrix.mulVec_add, Matrix.mulVec_neg, Matrix.mulVec_mulVec, Matrix.add_mulVec, Matrix.add_mul,
    Pi.add_apply, Pi.neg_apply, Pi.zero_apply, Matrix.mul_assoc] at e ⊢
  linear_combination e

end

/-! ### Time iteration -/

section ti
variable {nm ns nx : ℕ}

/-- What `perturb` and `time_iteration` have in common: a linear model, whose functions are those given to
`time_iteration`, solved by `perturb`; a discretized process with the right conditional means. -/
structure SameModel (solve : MatSolver ℝ) (qz : ∀ ns nx : ℕ, Matrix (Fin ns ⊕ Fin nx) (Fin ns ⊕ Fin nx) ℝ →
      Matrix (Fin ns ⊕ Fin nx) (Fin ns ⊕ Fin nx) ℝ → ℝ → QZ (Fin ns ⊕ Fin nx) ℝ)
    (cut : WithTop ℝ → WithTop ℝ → ℝ) (process : ExoProc nm ℝ) (dv : Derivs nm ns nx ℝ)
    (mb : Fin nm → ℝ) (sb : Fin ns → ℝ) (xb : Fin nx → ℝ) (t : BiTaylor nm ns nx ℝ) (M : TIModel ℝ) : Prop where
  solver : solve.Correct
  decomposition : QZOK qz process dv
  solved : perturb1 solve qz cut process dv mb sb xb = .ok t
  controls : M.nx = nx
  arbitrage : ∀ m s x M' S X (k : Fin nx), M.f m s x M' S X k
      = linF dv mb sb xb (headVec nm m) (headVec ns s) (headVec nx x) (headVec nm M') (headVec ns S) (headVec nx X) k
  transition : ∀ m s x M' (a : Fin ns), M.g m s x M' a
      = linG dv mb sb xb (headVec nm m) (headVec ns s) (headVec nx x) (headVec nm M') a
  means : ∀ i < M.dp.nNodes, MeanIs process mb M.dp i

/-- The table `xs` holds the values of the rule `t` on the grid. -/
def Tabulates (M : TIModel ℝ) (t : BiTaylor nm ns nx ℝ) (xs : Table ℝ) : Prop :=
  ∀ i < M.dp.nNodes, ∀ n < M.N,
    t.evalMS (.vec (headVec nm (M.dp.node i))) (.vec (headVec ns (M.s n))) = .ok (.vec (headVec nx (xs i n)))

/-- Interpolation of a table of values of the (affine) rule gives back the rule. -/
def ReproducesRule (M : TIModel ℝ) (t : BiTaylor nm ns nx ℝ) : Prop :=
  ∀ xs, Tabulates M t xs → ∀ i < M.dp.nNodes, ∀ j < M.dp.nInodes i, ∀ S,
    t.evalMS (.vec (headVec nm (M.dp.inode i j))) (.vec (headVec ns S)) = .ok (.vec (headVec nx (M.interp xs i j S)))

variable {solve : MatSolver ℝ} {qz : ∀ ns nx : ℕ, Matrix (Fin ns ⊕ Fin nx) (Fin ns ⊕ Fin nx) ℝ →
      Matrix (Fin ns ⊕ Fin nx) (Fin ns ⊕ Fin nx) ℝ → ℝ → QZ (Fin ns ⊕ Fin nx) ℝ}
    {cut : WithTop ℝ → WithTop ℝ → ℝ} {process : ExoProc nm ℝ} {dv : Derivs nm ns nx ℝ}
    {mb : Fin nm → ℝ} {sb : Fin ns → ℝ} {xb : Fin nx → ℝ} {t : BiTaylor nm ns nx ℝ} {M : TIModel ℝ}

private theorem euler_zero (h : SameModel solve qz cut process dv mb sb xb t M) (hI : ReproducesRule M t)
    (xs : Table ℝ) (hx : Tabulates M t xs) (i : ℕ) (hi : i < M.dp.nNodes) (n : ℕ) (hn : n < M.N) (k : ℕ)
    (hk : k < M.nx) : eulerResidual M i n (xs i n) xs k = 0 := by
  have e := C121_residuals_partial h.solver qz cut process dv h.decomposition mb sb xb t h.solved M.f M.g h.arbitrage
    h.transition M.s xs (M.interp xs) M.dp i n (h.means i hi) (hx i hi n hn) (hI xs hx i hi) k (h.controls ▸ hk)
  rwa [C75_residuals_simple] at e

/-- **C121, equilibrium.**  For a linear model, the rule of `perturb` on the grid is an equilibrium in the sense of
`time_iteration`, whenever it meets the constraints (if they are imposed). -/
theorem C121_equilibrium_partial (h : SameModel solve qz cut process dv mb sb xb t M) (hI : ReproducesRule M t)
    (xs : Table ℝ) (hx : Tabulates M t xs) (c : Bool)
    (hb : ∀ i < M.dp.nNodes, ∀ n < M.N, ∀ k < M.nx, (∀ l ∈ lowerAt M c i n k, l ≤ xs i n k) ∧
      ∀ u ∈ upperAt M c i n k, xs i n k ≤ u) :
    Equilibrium M c xs := by
  intro i hi n hn k hk
  rw [euler_zero h hI xs hx i hi n hn k hk]
  exact ⟨(hb i hi n hn k hk).1, (hb i hi n hn k hk).2, fun h => absurd h (lt_irrefl _),
    fun h => absurd h (lt_irrefl _)⟩

/-- **C121, time iteration finds the rule of perturb.**  For a linear model in which the arbitrage equations react more
to today's controls than to the future rule (`ℓ < μ`, on a set `D` of controls), and an inner solver with accuracy `δ`:
the rule returned by `time_iteration`, from any initial guess in `D`, is within `(κ δ + q err) / (1 - q)` of the rule of
`perturb` at all points of the grid, `err` being the error reported, `q = ℓ / μ` and `κ = max 1 L / μ`. -/
theorem C121_time_iteration_partial (h : SameModel solve qz cut process dv mb sb xb t M) (hI : ReproducesRule M t)
    (S : TISolvers ℝ) (o : TIOpts ℝ) (hub : M.lb.isSome → M.ub.isSome)
    (D : ℕ → ℕ → (ℕ → ℝ) → Prop) (μ L ℓ δ : ℝ) (hO : OwnControls M D μ L) (hF : FutureLipschitz M D ℓ)
    (hℓ : 0 ≤ ℓ) (hq : ℓ < μ) (hδ : 0 ≤ δ) (hS : SolverOK M S (imposed M o) D δ)
    (xs : Table ℝ) (hx : Tabulates M t xs) (hxs : Inside M D xs)
    (hb : ∀ i < M.dp.nNodes, ∀ n < M.N, ∀ k < M.nx, (∀ l ∈ lowerAt M (imposed M o) i n k, l ≤ xs i n k) ∧
      ∀ u ∈ upperAt M (imposed M o) i n k, xs i n k ≤ u)
    (t0 : Table ℝ) (h0 : tiInit M o = .ok t0) (hD : Inside M D t0)
    (r : TIFullResult ℝ) (hr : timeIterationFull M S o = .ok r) :
    ∀ i < M.dp.nNodes, ∀ n < M.N, ∃ x : Fin nx → ℝ,
      t.evalMS (.vec (headVec nm (M.dp.node i))) (.vec (headVec ns (M.s n))) = .ok (.vec x) ∧
      ∀ k : Fin nx, |r.dr i n k - x k| ≤ (max 1 L / μ * δ + ℓ / μ * r.err) / (1 - ℓ / μ) := by
  have he := C121_equilibrium_partial h hI xs hx (imposed M o) hb
  -- some bound on the distance from the initial guess
  obtain ⟨d0, hd0, hw⟩ : ∃ d0, 0 ≤ d0 ∧ Within M d0 t0 xs := by
    refine ⟨tableMax M.dp.nNodes M.N M.nx fun i n k => t0 i n k - xs i n k, ?_, ?_⟩
    · exact tableMax_nonneg _ _ _ _
    · intro i hi n hn k hk
      exact (tableMax_le_iff M.dp.nNodes M.N M.nx (fun i n k => t0 i n k - xs i n k) _
        (tableMax_nonneg _ _ _ _)).1 (le_refl _) i hi n hn k hk
  have hc := (C110_convergence M S o hub D μ L ℓ δ hO hF hℓ hq hδ hS xs hxs he t0 h0 hD d0 hd0 hw r hr).1
  intro i hi n hn
  refine ⟨headVec nx (xs i n), hx i hi n hn, fun k => ?_⟩
  exact hc i hi n hn k (by rw [h.controls]; exact k.2)

/-- A guess given by a rule of `perturb` is its table of values. -/
private theorem guess_table (h : SameModel solve qz cut process dv mb sb xb t M) (o : TIOpts ℝ)
    (hd : o.dr0 = some (t.asGuess M.N M.s)) (hn : 1 ≤ M.dp.nNodes) :
    ∃ xs, tiInit M o = .ok xs ∧ Tabulates M t xs := by
  obtain ⟨C_m, hC0, hev, -⟩ := rule_closed h.solver qz cut process dv h.decomposition mb sb xb t h.solved
  have hrows : ∀ m (l : List (Fin ns → ℝ)), t.evalMS (.rows [m]) (.rows l)
      = .ok (.rows (l.map fun s => xb + C_m *ᵥ (m - mb) + t.C_s *ᵥ (s - sb))) := by
    intro m l
    have e1 : t.evalMS (.rows [m]) (.rows l) = t.evalMS (.vec m) (.rows l) := rfl
    rw [e1]
    cases ht : t.C_m with
    | none =>
      rw [(C35_rows t).2 ht]
      congr 2
      refine List.map_congr_left fun s _ => ?_
      have e2 := hev m s
      rw [((C35_points t).2.1 ht m s).1] at e2
      injection e2 with e2
      injection e2
    | some C =>
      rw [((C35_rows t).1 C ht).2.1]
      congr 2
      refine List.map_congr_left fun s _ => ?_
      have e2 := hev m s
      rw [(C35_points t).1 C ht m s] at e2
      injection e2 with e2
      injection e2
  obtain ⟨xs, hxs, hv⟩ := (C110_initial M o).2.2 _ hd 0 .attributeError hn rfl
    (fun i n k => if hk : k < nx then (((List.range M.N).map fun n => headVec ns (M.s n)).map fun s =>
      xb + C_m *ᵥ (headVec nm (M.dp.node i) - mb) + t.C_s *ᵥ (s - sb))[n]?.elim 0 (fun r => r ⟨k, hk⟩) else 0)
    (by
      intro i _
      simp only [BiTaylor.asGuess, hrows, bind, Except.bind])
  refine ⟨xs, hxs, fun i hi n hn => ?_⟩
  rw [hev, hv i hi]
  congr 2
  funext k
  simp [headVec, hn]

/-- **C121, the rule of perturb as initial guess.**  For a linear model without constraints (or when they are ignored),
and an inner solver which stays where the residuals are zero (`C121_newton_stays`): `time_iteration` started from the rule
of `perturb` stops after one iteration, with an error of zero and the flag set, and returns this rule. -/
theorem C121_initial_guess_partial (h : SameModel solve qz cut process dv mb sb xb t M) (hI : ReproducesRule M t)
    (S : TISolvers ℝ) (o : TIOpts ℝ) (hd : o.dr0 = some (t.asGuess M.N M.s)) (hnodes : 1 ≤ M.dp.nNodes)
    (hc : M.lb = none ∨ o.wanted = false)
    (hS : ∀ fn x, (∀ r < M.dp.nNodes * M.N, ∀ k < M.nx, fn x r k = 0) → S.newton fn x = x)
    (hmax : 1 ≤ o.maxit) (htol0 : 0 < o.tol) (htol : o.tol < 10) :
    ∃ r, timeIterationFull M S o = .ok r ∧ r.iterations = 1 ∧ r.err = 0 ∧ r.x_converged = true ∧
      r.complementarities = false ∧ Tabulates M t r.dr := by
  obtain ⟨xs, hxs, hx⟩ := guess_table h o hd hnodes
  have hb : tiBounds M o = .ok none := by
    unfold tiBounds
    rcases hc with hc | hc
    · simp [hc]
    · cases M.lb <;> simp [hc]
  have hfix : tiUpdate M S none (toRows M.N xs) = toRows M.N xs := by
    refine hS _ _ fun r hr k hk => ?_
    have hN : 0 < M.N := by
      rcases Nat.eq_zero_or_pos M.N with h0 | h0
      · simp [h0] at hr
      · exact h0
    have hi : r / M.N < M.dp.nNodes := by
      rw [Nat.div_lt_iff_lt_mul hN]; exact hr
    have hn : r % M.N < M.N := Nat.mod_lt _ hN
    -- rows and tables
    have hof : ∀ i n, n < M.N → ofRows M.N (toRows M.N xs) i n = xs i n := by
      intro i n hn
      funext k
      have e1 : (i * M.N + n) / M.N = i := by
        rw [Nat.add_comm, Nat.add_mul_div_right _ _ hN, Nat.div_eq_of_lt hn, zero_add]
      have e2 : (i * M.N + n) % M.N = n := by
        rw [Nat.add_comm, Nat.add_mul_mod_self_right, Nat.mod_eq_of_lt hn]
      simp [ofRows, toRows, e1, e2]
    have htab : Tabulates M t (ofRows M.N (toRows M.N xs)) := by
      intro i hi n hn
      rw [hof i n hn]
      exact hx i hi n hn
    have e := euler_zero h hI _ htab (r / M.N) hi (r % M.N) hn k hk
    unfold tiFn
    show residualsSimple M.f M.g M.s (ofRows M.N (toRows M.N xs)) (M.interp (ofRows M.N (toRows M.N xs))) M.dp
      (r / M.N) (r % M.N) k = 0
    rw [C75_residuals_simple]
    exact e
  obtain ⟨r', hr'⟩ := (C28_returns (tiUpdate M S none)
    (fun a b => maxAbs (M.dp.nNodes * M.N) M.nx fun r k => a r k - b r k) o.tol o.maxit (toRows M.N xs)).2
    ⟨hmax, htol⟩
  obtain ⟨h1, h2, h3, h4, h5, h6, -⟩ := C28_time_iteration _ _ _ _ _ _ hr'
  have hit : ∀ n, (tiUpdate M S none)^[n] (toRows M.N xs) = toRows M.N xs := fun n => Function.iterate_fixed hfix n
  have hz : (maxAbs (M.dp.nNodes * M.N) M.nx fun r k => toRows M.N xs r k - toRows M.N xs r k) = 0 := by
    refine le_antisymm ((maxAbs_le_iff _ _ _ _ (le_refl _)).2 fun p _ i _ => ?_) (maxAbs_nonneg _ _ _)
    simp
  rw [hit, hit, hz] at h4
  have hone : r'.iterations = 1 := by
    by_contra hne
    have := h6 1 (le_refl _) (by omega)
    rw [hit, hit, hz] at this
    linarith
  refine ⟨⟨ofRows M.N r'.controls, r'.iterations, false, r'.converged, r'.err,
    if o.trace then some (tiTrace M (tiUpdate M S none) r'.iterations (toRows M.N xs)
      ++ [ofRows M.N r'.controls]) else none⟩, ?_, hone, h4, h5.2 (by rw [h4]; exact htol0), rfl, ?_⟩
  · unfold timeIterationFull
    rw [hxs, hb]
    simp only [bind, Except.bind]
    rw [hr']
    rfl
  · intro i hi n hn
    have hN : 0 < M.N := by omega
    have e1 : (i * M.N + n) / M.N = i := by
      rw [Nat.add_comm, Nat.add_mul_div_right _ _ hN, Nat.div_eq_of_lt hn, zero_add]
    have e2 : (i * M.N + n) % M.N = n := by
      rw [Nat.add_comm, Nat.add_mul_mod_self_right, Nat.mod_eq_of_lt hn]
    have e3 : ofRows M.N r'.controls i n = xs i n := by
      rw [h3, hit]
      funext k
      simp [ofRows, toRows, e1, e2]
    show t.evalMS _ _ = .ok (.vec (headVec nx (ofRows M.N r'.controls i n)))
    rw [e3]
    exact hx i hi n hn

/-- `newton` stays where the residuals are zero. -/
theorem C121_newton_stays (N n : ℕ) (f : (ℕ → ℕ → ℝ) → (ℕ → ℕ → ℝ) × (ℕ → ℕ → ℕ → ℝ)) (tol : ℝ) (htol : 0 < tol)
    (maxit : ℕ) (x : ℕ → ℕ → ℝ) (h0 : ∀ r < N, ∀ k < n, (f x).1 r k = 0) :
    (newton (serialProblem N n f) tol maxit x).x = x := by
  obtain ⟨path, hp0, hpn, -, hstep, -, -⟩ := C27_newton (serialProblem N n f) tol maxit x
  have : (newton (serialProblem N n f) tol maxit x).it = 0 := by
    by_contra hne
    have h1 := (hstep 0 (by omega)).1
    rw [hp0] at h1
    have h2 : (serialProblem N n f).norm ((serialProblem N n f).f x).1 ≤ 0 :=
      (maxAbs_le_iff N n _ 0 (le_refl _)).2 fun p hp i hi => by
        rw [show ((serialProblem N n f).f x).1 p i = (f x).1 p i from rfl, h0 p hp i hi]; simp
    linarith
  rw [this, hp0] at hpn
  exact hpn.symm

end ti

/-! ### Perfect foresight and impulse responses -/

section paths
variable {K : Type} [Field K] [LinearOrder K] [IsStrictOrderedRing K] {nm ns nx : ℕ}

private theorem const_path {M S X : Type} (g : M → S → X → M → S) (dr : M → S → X) (m : M) (s : S) (T t : ℕ)
    (ht : t < T) : (simLoop g dr m s (List.replicate T m))[t]?
      = some ((fun s => g m s (dr m s) m)^[t] s, dr m ((fun s => g m s (dr m s) m)^[t] s)) := by
  induction T generalizing s t with
  | zero => omega
  | succ T ih =>
    rw [List.replicate_succ, simLoop]
    cases t with
    | zero => simp
    | succ t =>
      simp only [List.getElem?_cons_succ]
      rw [ih _ t (by omega)]
      simp [Function.iterate_succ_apply]

private theorem const_length {M S X : Type} (g : M → S → X → M → S) (dr : M → S → X) (mp : M) (s : S) (ms : List M) :
    (simLoop g dr mp s ms).length = ms.length := by
  induction ms generalizing mp s with
  | nil => rfl
  | cons m r ih => simp [simLoop, ih]

/-- **C121, perfect foresight.**  For a linear model, the path simulated from any initial state with the rule of `perturb`
and no shocks, over `N ≥ 2` dates, solves the equations of `deterministic_solve` up to the terminal condition: all
entries of the residual are zero, except those of the last controls, where it is the change of the controls between the
last two dates. -/
theorem C121_perfect_foresight {solve : MatSolver K} (hsolve : solve.Correct)
    (qz : ∀ ns nx : ℕ, Matrix (Fin ns ⊕ Fin nx) (Fin ns ⊕ Fin nx) K →
      Matrix (Fin ns ⊕ Fin nx) (Fin ns ⊕ Fin nx) K → K → QZ (Fin ns ⊕ Fin nx) K)
    (cut : WithTop K → WithTop K → K) (process : ExoProc nm K) (dv : Derivs nm ns nx K) (hqz : QZOK qz process dv)
    (mb : Fin nm → K) (sb : Fin ns → K) (xb : Fin nx → K) (t : BiTaylor nm ns nx K)
    (h : perturb1 solve qz cut process dv mb sb xb = .ok t)
    (dr : (Fin nm → K) → (Fin ns → K) → Fin nx → K)
    (hdr : ∀ m s, t.evalMS (.vec m) (.vec s) = .ok (.vec (dr m s)))
    (N : ℕ) (hN : 2 ≤ N) (s0 : Fin ns → K) :
    ∃ path, simulateDriven (linG dv mb sb xb) dr s0 N (List.replicate N mb) = .ok path ∧ path.length = N ∧
      ∀ guess : ℕ → Fin ns ⊕ Fin nx → K,
        (∀ i p, path[i]? = some p → stOf guess i = p.1 ∧ ctOf guess i = p.2) →
        ∃ res, detResidual (linG dv mb sb xb) (linF dv mb sb xb) N guess s0 (fun _ => mb) = .ok res ∧
          (∀ i < N, ∀ a, res i (.inl a) = 0) ∧
          (∀ i, i + 1 < N → ∀ b, res i (.inr b) = 0) ∧
          ∀ b, res (N - 1) (.inr b) = guess (N - 2) (.inr b) - guess (N - 1) (.inr b) := by
  obtain ⟨C_m, -, hev, hlin⟩ := rule_closed hsolve qz cut process dv hqz mb sb xb t h
  have hrule : ∀ m s, dr m s = xb + C_m *ᵥ (m - mb) + t.C_s *ᵥ (s - sb) := by
    intro m s
    have := hdr m s
    rw [hev] at this
    injection this with this
    injection this with this
    exact this.symm
  obtain ⟨n, rfl⟩ : ∃ n, N = n + 1 := ⟨N - 1, by omega⟩
  refine ⟨simLoop (linG dv mb sb xb) dr mb s0 (List.replicate (n + 1) mb), ?_, by rw [const_length]; simp, ?_⟩
  · simp [simulateDriven, firstRows, List.replicate_succ, bind, Except.bind, pure, Except.pure]
  intro guess hg
  set step : (Fin ns → K) → Fin ns → K := fun s => linG dv mb sb xb mb s (dr mb s) mb with hstep
  have hgs : ∀ i < n + 1, stOf guess i = step^[i] s0 ∧ ctOf guess i = dr mb (step^[i] s0) := by
    intro i hi
    exact hg i _ (const_path _ _ _ _ _ _ hi)
  obtain ⟨res, hres, h0, h1, h2, h3⟩ := detResidual_entries (linG dv mb sb xb) (linF dv mb sb xb) (n + 1) hN guess s0
    (fun _ => mb)
  refine ⟨res, hres, ?_, ?_, h3⟩
  · intro i hi a
    cases i with
    | zero =>
      have e := congrFun (hgs 0 (by omega)).1 a
      simp only [stOf, Function.iterate_zero, id] at e
      rw [h0, e, sub_self]
    | succ i =>
      have e := congrFun (hgs (i + 1) hi).1 a
      rw [Function.iterate_succ_apply'] at e
      simp only [stOf] at e
      rw [h1 i a hi, (hgs i (by omega)).1, (hgs i (by omega)).2, e]
      simp [hstep]
  · intro i hi b
    rw [h2 i b hi, (hgs i (by omega)).1, (hgs i (by omega)).2, (hgs (i + 1) hi).1, (hgs (i + 1) hi).2,
      Function.iterate_succ_apply']
    have e := congrFun (hlin 0 (fun _ => rfl) 0 (step^[i] s0 - sb) (fun _ => rfl) (fun A _ => by simp)) b
    simp only [Matrix.mulVec_zero, zero_add, add_zero] at e
    rw [linF]
    generalize step^[i] s0 = v at e ⊢
    simp only [hstep, linG, hrule, sub_self, Matrix.mulVec_zero, add_zero, zero_add, add_sub_cancel_left]
    simpa using e

/-- The response to a shock `e` of a linear model with transition matrix `A = g_s + g_x C` of the states: nothing for two
dates, then the shock, then its decay. -/
def linResponse (dv : Derivs nm ns nx K) (C : Matrix (Fin nx) (Fin ns) K) (e : Fin nm → K) : ℕ → Fin ns → K
  | 0 => 0
  | 1 => 0
  | 2 => dv.g_M *ᵥ e
  | t + 3 => (dv.g_s + dv.g_x * C) ^ t *ᵥ (dv.g_m *ᵥ e + (dv.g_s + dv.g_x * C) *ᵥ (dv.g_M *ᵥ e))

/-- **C121, impulse response.**  For a linear model with iid shocks calibrated at zero, the response computed by
`response` with the rule of `perturb` over `T ≥ 2` dates is, at every date, the steady state plus `linResponse`, the
controls following with the rule.  It is thus linear in the impulse. -/
theorem C121_response_partial {solve : MatSolver K} (hsolve : solve.Correct)
    (qz : ∀ ns nx : ℕ, Matrix (Fin ns ⊕ Fin nx) (Fin ns ⊕ Fin nx) K →
      Matrix (Fin ns ⊕ Fin nx) (Fin ns ⊕ Fin nx) K → K → QZ (Fin ns ⊕ Fin nx) K)
    (cut : WithTop K → WithTop K → K) (dv : Derivs nm ns nx K) (hqz : QZOK qz .iid dv)
    (sb : Fin ns → K) (xb : Fin nx → K) (t : BiTaylor nm ns nx K)
    (h : perturb1 solve qz cut .iid dv 0 sb xb = .ok t)
    (dr : (Fin nm → K) → (Fin ns → K) → Fin nx → K)
    (hdr : ∀ m s, t.evalMS (.vec m) (.vec s) = .ok (.vec (dr m s)))
    (rho : Fin nm → Fin nm → K) (mu : Fin nm → K) (T : ℕ) (hT : 2 ≤ T) (e : Fin nm → K) :
    ∃ sim, modelResponse .iid rho mu (linG dv 0 sb xb) dr sb T e = .ok sim ∧ sim.length = T ∧
      ∀ i < T, sim[i]? = some (sb + linResponse dv t.C_s e i, xb + t.C_s *ᵥ linResponse dv t.C_s e i) := by
  obtain ⟨C_m, hC0, hev, -⟩ := rule_closed hsolve qz cut .iid dv hqz 0 sb xb t h
  have hrule : ∀ m s, dr m s = xb + t.C_s *ᵥ (s - sb) := by
    intro m s
    have := hdr m s
    rw [hev, hC0 rfl] at this
    injection this with this
    injection this with this
    rw [← this]; simp
  obtain ⟨n, rfl⟩ : ∃ n, T = n + 2 := ⟨T - 2, by omega⟩
  set z : Fin nm → K := fun _ => 0 with hz
  have hz0 : z = 0 := rfl
  set g := linG dv 0 sb xb with hg
  set A := dv.g_s + dv.g_x * t.C_s with hA
  have hm : iidResponse (n + 2 - 1) e = .ok (z :: e :: List.replicate n z) := by
    unfold iidResponse
    rw [if_neg (by omega)]
    congr 1
    refine List.ext_getElem (by simp) fun i h1 h2 => ?_
    rcases i with _ | _ | i
    · simp [hz]
    · simp
    · simp [hz]
  have hstep : ∀ m v M', g m (sb + v) (dr M' (sb + v)) M' = sb + (A *ᵥ v + dv.g_m *ᵥ m + dv.g_M *ᵥ M') := by
    intro m v M'
    rw [hg, linG, hrule, hA, Matrix.add_mulVec, ← Matrix.mulVec_mulVec]
    simp only [add_sub_cancel_left, sub_zero]
    abel
  have hd : ∀ m v, dr m (sb + v) = xb + t.C_s *ᵥ v := by
    intro m v; rw [hrule]; simp
  have hit : ∀ v i, (fun s => g z s (dr z s) z)^[i] (sb + v) = sb + (A ^ i) *ᵥ v := by
    intro v i
    induction i with
    | zero => simp
    | succ i ih =>
      rw [Function.iterate_succ_apply', ih]
      simp only [hstep, hz0, Matrix.mulVec_zero, add_zero, Matrix.mulVec_mulVec, pow_succ']
  have hsim : modelResponse .iid rho mu g dr sb (n + 2) e = .ok (simLoop g dr z sb (z :: e :: List.replicate n z)) := by
    simp only [modelResponse, hm, bind, Except.bind, simulateDriven]
    simp [firstRows, pure, Except.pure]
  have e0 : sb = sb + (0 : Fin ns → K) := by simp
  have hs1 : g z sb (dr z sb) z = sb + 0 := by
    conv_lhs => rw [e0]
    rw [hstep]; simp [hz0]
  have hs2 : g z (sb + 0) (dr e (sb + 0)) e = sb + dv.g_M *ᵥ e := by
    rw [hstep]; simp [hz0]
  refine ⟨_, hsim, by rw [const_length]; simp, fun i hi => ?_⟩
  rcases i with _ | _ | i
  · simp only [simLoop, List.getElem?_cons_zero, linResponse]
    rw [← hd z 0, ← e0]
  · simp only [simLoop, List.getElem?_cons_succ, List.getElem?_cons_zero, hs1, linResponse, hd]
  · simp only [simLoop, List.getElem?_cons_succ, hs1, hs2]
    obtain ⟨n, rfl⟩ : ∃ k, n = k + 1 := ⟨n - 1, by omega⟩
    rw [List.replicate_succ, simLoop]
    rcases i with _ | i
    · simp only [List.getElem?_cons_zero, linResponse, hd]
    · simp only [List.getElem?_cons_succ]
      rw [const_path _ _ _ _ _ _ (by omega), hstep, hit]
      simp only [hd, linResponse, hz0, Matrix.mulVec_zero, add_zero]
      rw [← hA, add_comm (A *ᵥ (dv.g_M *ᵥ e))]

end paths

/-! ### A model meeting the hypotheses -/

section instances

open Classical in
/-- An exact linear solver over the reals. -/
noncomputable def solverR : MatSolver ℝ := fun _ _ M R =>
  if IsUnit M.det then .ok (M⁻¹ * R) else .error .linAlgError

theorem solverR_correct : MatSolver.Correct solverR := by
  intro n m M R X h
  unfold solverR at h
  split_ifs at h with hM
  simp only [Except.ok.injEq] at h
  refine ⟨hM, ?_⟩
  rw [← h, ← Matrix.mul_assoc, mul_nonsing_inv _ hM, Matrix.one_mul]

/-- A rotation, which decomposes the pencil of `dvR`. -/
noncomputable def rotR (ns nx : ℕ) : Matrix (Fin ns ⊕ Fin nx) (Fin ns ⊕ Fin nx) ℝ :=
  fromBlocks (.of fun i j => if i = j then 4 / 5 else 0) (.of fun _ _ => -3 / 5) (.of fun _ _ => 3 / 5)
    (.of fun i j => if i = j then 4 / 5 else 0)

noncomputable def qzR : ∀ ns nx : ℕ, Matrix (Fin ns ⊕ Fin nx) (Fin ns ⊕ Fin nx) ℝ →
    Matrix (Fin ns ⊕ Fin nx) (Fin ns ⊕ Fin nx) ℝ → ℝ → QZ (Fin ns ⊕ Fin nx) ℝ :=
  fun ns nx A B _ => ⟨A * rotR ns nx, B * rotR ns nx, 1, rotR ns nx⟩

/-- `x_t + m_t + 2 E m_{t+1} = 3/4 s_t` and `s_{t+1} = s_t / 2 + m_{t+1}`, in deviations. -/
noncomputable def dvR : Derivs 1 1 1 ℝ :=
  ⟨.of fun _ _ => 1, .of fun _ _ => -3 / 4, .of fun _ _ => 1, .of fun _ _ => 2, 0, 0, 0, .of fun _ _ => 1 / 2, 0,
    .of fun _ _ => 1⟩

private theorem rotR_orth : (rotR 1 1)ᵀ * rotR 1 1 = 1 ∧ rotR 1 1 * (rotR 1 1)ᵀ = 1 := by
  constructor <;>
  · ext i j
    rcases i with i | i <;> rcases j with j | j <;> fin_cases i <;> fin_cases j <;>
      simp [rotR, Matrix.mul_apply] <;> norm_num

theorem qzR_ok : QZOK qzR .iid dvR := by
  refine ⟨⟨?_, ?_, by simp [qzR], rotR_orth.1⟩, ⟨?_, ?_, ?_⟩⟩
  · simp [qzR, Matrix.mul_assoc, rotR_orth.2]
  · simp [qzR, Matrix.mul_assoc, rotR_orth.2]
  · ext i j; fin_cases i; fin_cases j
    simp [qzR, rotR, pencilA, dvR, toBlocks₂₁, Matrix.mul_apply]
  · ext i j; fin_cases i; fin_cases j
    simp [qzR, rotR, pencilB, dvR, toBlocks₂₁, Matrix.mul_apply]
    norm_num
  · rw [Matrix.det_fin_one]
    simp [qzR, rotR, pencilA, toBlocks₁₁, Matrix.mul_apply]

/-- The rule found by `perturb`: `x = xb + 3/4 (s - sb)`. -/
noncomputable def ruleR (mb sb xb : Fin 1 → ℝ) : BiTaylor 1 1 1 ℝ := ⟨mb, sb, xb, none, .of fun _ _ => 3 / 4⟩

theorem perturbR (mb sb xb : Fin 1 → ℝ) :
    perturb1 solverR qzR (fun _ _ => 0) .iid dvR mb sb xb = .ok (ruleR mb sb xb) := by
  set d := qzR 1 1 (pencilA dvR.f_S dvR.f_X) (pencilB dvR.g_s dvR.g_x dvR.f_s dvR.f_x) (1 - 1 / 10 ^ 8) with hd
  have s0 : d.S (.inl 0) (.inl 0) = 4 / 5 := by
    simp [hd, qzR, rotR, pencilA, Matrix.mul_apply]
  have s1 : d.S (.inr 0) (.inr 0) = 0 := by
    simp [hd, qzR, rotR, pencilA, dvR, Matrix.mul_apply]
  have t0 : d.T (.inl 0) (.inl 0) = 2 / 5 := by
    simp [hd, qzR, rotR, pencilB, dvR, Matrix.mul_apply]
    norm_num
  have t1 : d.T (.inr 0) (.inr 0) = 5 / 4 := by
    simp [hd, qzR, rotR, pencilB, dvR, Matrix.mul_apply]
    norm_num
  have h1 : diagOk d = true := by
    simp [diagOk, s0, s1, t0, t1]; norm_num
  have h2 : bkTest d = .ok true := by
    have e1 : genEig d (.inl 0) = ((2 : ℝ) : WithTop ℝ) := by
      simp [genEig, s0, t0]; norm_num
    have e2 : genEig d (.inr 0) = ((0 : ℝ) : WithTop ℝ) := by
      simp [genEig, s1, t1]
    have h3 : (1 : WithTop ℝ) ≤ ((2 : ℝ) : WithTop ℝ) := by exact_mod_cast (by norm_num : (1 : ℝ) ≤ 2)
    have h4 : ((0 : ℝ) : WithTop ℝ) < 1 := by exact_mod_cast (by norm_num : (0 : ℝ) < 1)
    unfold bkTest
    rw [take_eigList, drop_eigList]
    simp only [List.ofFn_succ, List.ofFn_zero, e1, e2, pyMax, pyMin, List.foldl_nil, bind, Except.bind, h3,
      if_true, pure, Except.pure, h4, decide_true]
  have h3 : ruleFromQZ solverR d = .ok (.of fun _ _ => 3 / 4) := by
    unfold ruleFromQZ
    have hz : d.Z = rotR 1 1 := rfl
    have hdet : IsUnit (d.Z.toBlocks₁₁)ᵀ.det := by
      rw [Matrix.det_fin_one, hz]; simp [rotR]
    simp only [solverR, if_pos hdet, bind, Except.bind, pure, Except.pure, Except.ok.injEq]
    have : (d.Z.toBlocks₁₁)ᵀ⁻¹ * (d.Z.toBlocks₂₁)ᵀ = .of fun _ _ => 3 / 4 := by
      have e : (d.Z.toBlocks₂₁)ᵀ = (d.Z.toBlocks₁₁)ᵀ * (.of fun _ _ => 3 / 4 : Matrix (Fin 1) (Fin 1) ℝ) := by
        ext i j; fin_cases i; fin_cases j
        simp [hz, rotR, Matrix.mul_apply]
      rw [e, ← Matrix.mul_assoc, Matrix.nonsing_inv_mul _ hdet, Matrix.one_mul]
    rw [this]
    rfl
  unfold perturb1 approximate1stOrder selectRule
  simp only [← hd, h1, h2, h3, bind, Except.bind, pure, Except.pure]
  rfl

/-- The same model for `time_iteration`, on the grid with the two states 0 and 1; two shocks `±1`. -/
noncomputable def modelR : TIModel ℝ where
  N := 2
  s := fun n _ => n
  nx := 1
  x0 := fun _ => 0
  dp := iidDProc 2 (fun _ => 1 / 2) (fun j _ => 2 * j - 1)
  f := fun m s x M S X k => if h : k < 1 then linF dvR 0 0 0 (headVec 1 m) (headVec 1 s) (headVec 1 x) (headVec 1 M)
    (headVec 1 S) (headVec 1 X) ⟨k, h⟩ else 0
  g := fun m s x M k => if h : k < 1 then linG dvR 0 0 0 (headVec 1 m) (headVec 1 s) (headVec 1 x) (headVec 1 M) ⟨k, h⟩ else 0
  lb := none
  ub := none
  interp := fun xs _ _ S k => xs 0 0 k + (xs 0 1 k - xs 0 0 k) * S 0

theorem evalR (mb sb xb m s : Fin 1 → ℝ) :
    (ruleR mb sb xb).evalMS (.vec m) (.vec s) = .ok (.vec fun k => xb k + 3 / 4 * (s 0 - sb 0)) := by
  rw [((C35_points (ruleR mb sb xb)).2.1 rfl m s).1]
  congr 2
  funext k
  fin_cases k
  simp [ruleR, Matrix.mulVec, dotProduct]

/-- The hypotheses of `C121_equilibrium_partial` and `C121_initial_guess_partial`. -/
example : SameModel solverR qzR (fun _ _ => 0) .iid dvR 0 0 0 (ruleR 0 0 0) modelR ∧
    ReproducesRule modelR (ruleR 0 0 0) ∧ Tabulates modelR (ruleR 0 0 0) (fun _ n _ => 3 / 4 * n) := by
  refine ⟨⟨solverR_correct, qzR_ok, perturbR 0 0 0, rfl, ?_, ?_, ?_⟩, ?_, ?_⟩
  · intro m s x M' S X k
    exact dif_pos k.2
  · intro m s x M' k
    exact dif_pos k.2
  · intro i _
    refine ⟨?_, rfl, ?_⟩
    · simp [modelR, iidDProc]
    · funext k
      simp [modelR, iidDProc, Finset.sum_range_succ, headVec]; norm_num
  · intro xs hxs i hi j hj S
    have h0 := hxs 0 (by simp [modelR, iidDProc]) 0 (by simp [modelR])
    have h1 := hxs 0 (by simp [modelR, iidDProc]) 1 (by simp [modelR])
    rw [evalR] at h0 h1 ⊢
    injection h0 with h0
    injection h0 with h0
    injection h1 with h1
    injection h1 with h1
    congr 2
    funext k
    fin_cases k
    have a0 := congrFun h0 0
    have a1 := congrFun h1 0
    simp [headVec, modelR] at a0 a1
    simp [headVec, modelR, ← a0, ← a1]
  · intro i hi n hn
    rw [evalR]
    congr 2
    funext k
    simp [headVec, modelR]

/-- With shocks of mean one, the residual of the rule of `perturb` in this model is minus one everywhere. -/
theorem C121_nonzero_mean_fails (s : ℕ → ℕ → ℝ) (n : ℕ) :
    residualsSimple
      (fun m s x M S X k => if h : k < 1 then linF dvR 1 0 0 (headVec 1 m) (headVec 1 s) (headVec 1 x) (headVec 1 M)
        (headVec 1 S) (headVec 1 X) ⟨k, h⟩ else 0)
      (fun m s x M k => if h : k < 1 then linG dvR 1 0 0 (headVec 1 m) (headVec 1 s) (headVec 1 x) (headVec 1 M) ⟨k, h⟩ else 0)
      s (fun _ n _ => 3 / 4 * s n 0) (fun _ _ S _ => 3 / 4 * S 0) (iidDProc 2 (fun _ => 1 / 2) (fun j _ => 2 * j))
      0 n 0 = -1 := by
  refine Eq.trans (C121_iid_residuals solverR_correct qzR _ dvR qzR_ok 1 0 0 (ruleR 1 0 0) (perturbR 1 0 0) _ _
    (fun m s x M S X k => dif_pos k.2) (fun m s x M a => dif_pos a.2) 2 (fun _ => 1 / 2) (fun j _ => 2 * j)
    (by simp) (by funext k; simp [Finset.sum_range_succ, headVec]) s _ _ n
    (by rw [evalR]; congr 2; funext k; simp [headVec])
    (fun j _ S => by rw [evalR]; congr 2; funext k; simp [headVec]) 0) ?_
  simp [dvR, Matrix.mulVec, dotProduct]

/-- The other hypotheses of `C121_time_iteration_partial` hold in this model, with an exact inner solver. -/
example : OwnControls modelR (fun _ _ _ => True) 1 1 ∧ FutureLipschitz modelR (fun _ _ _ => True) 0 ∧
    imposed modelR { tol := 1 / 100 } = false ∧
    SolverOK modelR ⟨fun fn _ => fun r k => - fn 0 r k, fun _ _ _ x => x⟩ false (fun _ _ _ => True) 0 := by
  have hres : ∀ i n y v k, k < modelR.nx → eulerResidual modelR i n y v k = y k - 3 / 4 * n := by
    intro i n y v k hk
    have hk : k = 0 := by simpa [modelR] using hk
    subst hk
    simp [eulerResidual, modelR, iidDProc, Finset.sum_range_succ, linF, linG, dvR, headVec, Matrix.mulVec, dotProduct]
    ring
  refine ⟨⟨one_pos, ?_, ?_⟩, ?_, rfl, ?_⟩
  · intro v _ i _ n _ y z _ _ l hl
    refine ⟨l, hl, ?_⟩
    rw [hres _ _ _ _ _ hl, hres _ _ _ _ _ hl]
    apply le_of_eq; ring
  · intro v _ i _ n _ y z _ _ c _ hc k hk
    rw [hres _ _ _ _ _ hk, hres _ _ _ _ _ hk]
    have := hc k hk
    rw [sub_sub_sub_cancel_right]; linarith
  · intro v v' c _ _ _ hw i hi n hn y _ k hk
    rw [hres _ _ _ _ _ hk, hres _ _ _ _ _ hk]
    simp
  · show ∀ v, Inside modelR _ v → _
    intro v _ fn x hfn i hi n hn
    refine ⟨trivial, fun k hk => ?_⟩
    rw [hres _ _ _ _ _ hk]
    have e := hfn 0 i hi n hn k hk
    rw [hres _ _ _ _ _ hk] at e
    simp only [e]
    simp [naturalResidual, lowerAt, upperAt]

end instances

end Dolo
