import Verif.Props.SecondOrderRule

/-!
# C163: equation errors of the second-order rule
-/

set_option linter.unusedSectionVars false

namespace Dolo

open Filter Topology Asymptotics PowerSeries
open scoped Matrix

/-! ### Expansions, uniformly in the direction -/

section uniform
variable {E : Type} [NormedAddCommGroup E] {I J L : Type} [Fintype J]

/-- The formal curve `z h` holds the expansion of `u` in the direction `h` up to second order, uniformly in `h`. -/
private structure UTracks (u : E → J → ℝ) (u0 : J → ℝ) (z : E → J → ℝ⟦X⟧) : Prop where
  zero : ∀ h, cf 0 (z h) = 0
  small : ∀ j, (fun h => u h j - u0 j - cf 1 (z h) j - cf 2 (z h) j) =o[𝓝 (0 : E)] fun h => ‖h‖ ^ 2
  one : ∀ j, (fun h => cf 1 (z h) j) =O[𝓝 (0 : E)] fun h => ‖h‖
  two : ∀ j, (fun h => cf 2 (z h) j) =O[𝓝 (0 : E)] fun h => ‖h‖ ^ 2

private theorem sq_little : (fun h : E => ‖h‖ ^ 2) =o[𝓝 0] fun h => ‖h‖ := by
  have : (fun h : E => ‖h‖ * ‖h‖) =o[𝓝 0] fun h => (1 : ℝ) * ‖h‖ :=
    IsLittleO.mul_isBigO ((isLittleO_one_iff ℝ).2 tendsto_norm_zero) (isBigO_refl _ _)
  simpa only [one_mul, ← pow_two] using this

private theorem UTracks.comp {u : E → J → ℝ} {u0 : J → ℝ} {z : E → J → ℝ⟦X⟧} (h : UTracks u u0 z) {F : (J → ℝ) → I → ℝ}
    {f1 : I → J → ℝ} {f2 : I → J → J → ℝ} (hF : Expands2 F u0 f1 f2) {Fh : (J → ℝ⟦X⟧) → I → ℝ⟦X⟧} (hFh : Taylor2 Fh f1 f2)
    [Fintype I] : UTracks (fun h => F (u h)) (F u0) (fun h => Fh (z h)) := by
  obtain ⟨h0, h1, hO1, hO2⟩ := h
  have hc := fun v => cf_taylor2 hFh (z v) (h0 v)
  have k1 : ∀ j, (fun h => u h j - u0 j - cf 1 (z h) j) =o[𝓝 (0 : E)] fun h => ‖h‖ := by
    intro j
    have := ((h1 j).trans sq_little).add ((hO2 j).trans_isLittleO sq_little)
    refine this.congr_left fun t => ?_
    ring
  have k0 : ∀ j, (fun h => u h j - u0 j) =O[𝓝 (0 : E)] fun h => ‖h‖ := by
    intro j
    refine ((k1 j).isBigO.add (hO1 j)).congr_left fun t => ?_
    ring
  have kO : (fun h => u h - u0) =O[𝓝 (0 : E)] fun h => ‖h‖ := isBigO_pi.2 k0
  have kT : Tendsto (fun h => u h - u0) (𝓝 (0 : E)) (𝓝 0) := kO.trans_tendsto tendsto_norm_zero
  refine ⟨fun v => (hc v).1, fun i => ?_, fun i => ?_, fun i => ?_⟩
  · have e1 : (fun t => F (u t) i - F u0 i - ∑ j, f1 i j * (u t j - u0 j)
        - 1 / 2 * ∑ j, ∑ l, f2 i j l * ((u t j - u0 j) * (u t l - u0 l))) =o[𝓝 (0 : E)] fun t => ‖t‖ ^ 2 := by
      have := ((hF i).comp_tendsto kT).trans_isBigO (k := fun t : E => ‖t‖ ^ 2) (by
        have := kO.norm_left.pow 2
        exact this)
      refine this.congr_left fun t => ?_
      simp [Function.comp_def]
    have e2 : (fun t => ∑ j, f1 i j * (u t j - u0 j - cf 1 (z t) j - cf 2 (z t) j)) =o[𝓝 (0 : E)] fun t => ‖t‖ ^ 2 :=
      IsLittleO.fun_sum fun j _ => (h1 j).const_mul_left _
    have e3 : (fun t => 1 / 2 * ∑ j, ∑ l, f2 i j l * ((u t j - u0 j) * (u t l - u0 l) - cf 1 (z t) j * cf 1 (z t) l))
        =o[𝓝 (0 : E)] fun t => ‖t‖ ^ 2 := by
      refine IsLittleO.const_mul_left (IsLittleO.fun_sum fun j _ => IsLittleO.fun_sum fun l _ =>
        IsLittleO.const_mul_left ?_ _) _
      have a := (k0 j).mul_isLittleO (k1 l)
      have b := (k1 j).mul_isBigO (hO1 l)
      have := a.add b
      simp only [← pow_two] at this
      refine this.congr_left fun t => ?_
      ring
    refine ((e1.add e2).add e3).congr_left fun t => ?_
    rw [(hc t).2.1, (hc t).2.2]
    simp only [L1_apply, L2_apply, c1, c2, Pi.add_apply, Pi.smul_apply, smul_eq_mul, mul_sub, Finset.sum_sub_distrib,
      Finset.mul_sum]
    have r1 : ∀ a b c d e g h : ℝ, a - b - c - d + (c - e - g) + (d - h) = a - b - e - (g + h) := by intros; ring
    convert r1 _ _ _ _ _ _ _ using 3
    all_goals try simp only [Finset.mul_sum, mul_assoc, Finset.sum_sub_distrib, mul_sub]
  · have : (fun h => ∑ j, f1 i j * cf 1 (z h) j) =O[𝓝 (0 : E)] fun h => ‖h‖ :=
      IsBigO.fun_sum fun j _ => (hO1 j).const_mul_left _
    refine this.congr_left fun t => ?_
    rw [(hc t).2.1]
    rfl
  · have a : (fun h => ∑ j, f1 i j * cf 2 (z h) j) =O[𝓝 (0 : E)] fun h => ‖h‖ ^ 2 :=
      IsBigO.fun_sum fun j _ => (hO2 j).const_mul_left _
    have b : (fun h => 1 / 2 * ∑ j, ∑ l, f2 i j l * (cf 1 (z h) j * cf 1 (z h) l)) =O[𝓝 (0 : E)] fun h => ‖h‖ ^ 2 := by
      refine IsBigO.const_mul_left (IsBigO.fun_sum fun j _ => IsBigO.fun_sum fun l _ => IsBigO.const_mul_left ?_ _) _
      have := (hO1 j).mul (hO1 l)
      simpa only [← pow_two] using this
    refine (a.add b).congr_left fun t => ?_
    rw [(hc t).2.2]
    simp only [L1_apply, L2_apply, c1, c2, Pi.add_apply, Pi.smul_apply, smul_eq_mul, mul_assoc]

private theorem UTracks.at {u : E → J → ℝ} {u0 u1 : J → ℝ} {z : E → J → ℝ⟦X⟧} (h : UTracks u u0 z) (e : u0 = u1) :
    UTracks u u1 z := e ▸ h

private theorem UTracks.elim {u : E → I → ℝ} {u0 : I → ℝ} {z : E → I → ℝ⟦X⟧} [Fintype I] (h : UTracks u u0 z)
    {v : E → J → ℝ} {v0 : J → ℝ} {w : E → J → ℝ⟦X⟧} (h' : UTracks v v0 w) :
    UTracks (fun t => Sum.elim (u t) (v t)) (Sum.elim u0 v0) (fun t => Sum.elim (z t) (w t)) := by
  refine ⟨fun t => ?_, ?_, ?_, ?_⟩
  · funext j
    rcases j with j | j
    · exact congrFun (h.zero t) j
    · exact congrFun (h'.zero t) j
  · rintro (j | j)
    · exact h.small j
    · exact h'.small j
  · rintro (j | j)
    · exact h.one j
    · exact h'.one j
  · rintro (j | j)
    · exact h.two j
    · exact h'.two j

private theorem UTracks.linear (u0 : J → ℝ) (l : J → E → ℝ) (hl : ∀ j, l j =O[𝓝 (0 : E)] fun h => ‖h‖) :
    UTracks (fun h j => u0 j + l j h) u0 (fun h j => C (l j h) * X) := by
  refine ⟨fun h => by funext j; simp [cf], fun j => ?_, fun j => ?_, fun j => ?_⟩
  · refine (isLittleO_zero _ _).congr_left fun h => ?_
    simp [cf, coeff_X, coeff_C_mul]
  · refine (hl j).congr_left fun h => ?_
    simp [cf]
  · refine (isBigO_zero _ _).congr_left fun h => ?_
    simp [cf, coeff_X, coeff_C_mul]

end uniform

/-! ### Theorems -/

section main
variable {ns nx ne : ℕ} {p : Problem ns nx ne ℝ} {X_s : Fin nx → Fin ns → ℝ} {X_ss : Fin nx → Fin ns → Fin ns → ℝ}
  {X_tt : Fin nx → ℝ} {g : (Fin ns → ℝ) → (Fin nx → ℝ) → (Fin ne → ℝ) → Fin ns → ℝ}
  {f : (Fin ns → ℝ) → (Fin nx → ℝ) → (Fin ns → ℝ) → (Fin nx → ℝ) → Fin nx → ℝ} {sb : Fin ns → ℝ} {xb : Fin nx → ℝ}

/-- The expected equation errors of a rule `x = φ(s, λ)`, when the shocks are `λ ε` and the rule is used now and at the
next date: `E f(s, x, s', φ(s', λ))` with `s' = g(s, x, λ ε)`. -/
def equationError (g : (Fin ns → ℝ) → (Fin nx → ℝ) → (Fin ne → ℝ) → Fin ns → ℝ)
    (f : (Fin ns → ℝ) → (Fin nx → ℝ) → (Fin ns → ℝ) → (Fin nx → ℝ) → Fin nx → ℝ) {D : Type} [Fintype D] (w : D → ℝ)
    (ε : D → Fin ne → ℝ) (φ : (Fin ns → ℝ) → ℝ → Fin nx → ℝ) (s : Fin ns → ℝ) (lam : ℝ) (i : Fin nx) : ℝ :=
  ∑ d, w d * f s (φ s lam) (g s (φ s lam) (lam • ε d)) (φ (g s (φ s lam) (lam • ε d)) lam) i

/-- The rule that `perturb` builds from the second-order solution: `xb + X_tt / 2 + X_s h + X_ss[h, h] / 2` for `λ = 1`
(`dolo/algos/perturbations_higher_order.py:62-71`); for other scales of risk the covariance matrix is multiplied by `λ²`, and
so is `X_tt`. -/
noncomputable def secondRule (sb : Fin ns → ℝ) (xb : Fin nx → ℝ) (X_s : Fin nx → Fin ns → ℝ) (X_ss : Fin nx → Fin ns → Fin ns → ℝ)
    (X_tt : Fin nx → ℝ) (s : Fin ns → ℝ) (lam : ℝ) (i : Fin nx) : ℝ :=
  xb i + X_tt i * lam ^ 2 / 2 + ∑ a, X_s i a * (s a - sb a)
    + 1 / 2 * ∑ a, ∑ b, X_ss i a b * ((s a - sb a) * (s b - sb b))

private theorem first_order_of_saddle
    (hC : SaddlePath (.of p.g_s) (.of p.g_x) (.of p.f_s) (.of p.f_x) (.of p.f_S) (.of p.f_X) (.of X_s)) : p.FirstOrder X_s := by
  unfold Problem.FirstOrder
  set C : Matrix (Fin nx) (Fin ns) ℝ := .of X_s with hCdef
  refine Matrix.ext_of_mulVec_single fun i => ?_
  set v : Fin ns → ℝ := Pi.single i 1
  have := ((hC (fun t => (Matrix.of p.g_s + Matrix.of p.g_x * C) ^ t *ᵥ v)
    (fun t => C *ᵥ ((Matrix.of p.g_s + Matrix.of p.g_x * C) ^ t *ᵥ v))).2
      fun t => ⟨rfl, by rw [pow_succ', ← Matrix.mulVec_mulVec]⟩).1.2 0
  rw [Matrix.zero_mulVec, ← this]
  simp [Matrix.add_mulVec, ← Matrix.mulVec_mulVec]

/-- The expansion of the equation error for one draw of the shocks. -/
private theorem error_tracks (hp : ProblemAt p g f sb xb) {φ : (Fin ns → ℝ) → ℝ → Fin nx → ℝ} (h0 : φ sb 0 = xb)
    {r1 : Fin nx → (Fin ns ⊕ Unit) → ℝ} {r2 : Fin nx → (Fin ns ⊕ Unit) → (Fin ns ⊕ Unit) → ℝ}
    (hφ : Expands2 (fun y : Fin ns ⊕ Unit → ℝ => φ (y ∘ .inl) (y (.inr ()))) (Sum.elim sb 0) r1 r2)
    {D : Type} (ε : D → Fin ne → ℝ) (d : D) :
    UTracks (fun v : Fin ns ⊕ Unit → ℝ => f (sb + v ∘ .inl) (φ (sb + v ∘ .inl) (v (.inr ())))
          (g (sb + v ∘ .inl) (φ (sb + v ∘ .inl) (v (.inr ()))) (v (.inr ()) • ε d))
          (φ (g (sb + v ∘ .inl) (φ (sb + v ∘ .inl) (v (.inr ()))) (v (.inr ()) • ε d)) (v (.inr ())))) (f sb xb sb xb)
          (fun v => pathResidual (quadPoly p.f1 p.f2) (quadPoly p.g1 p.g2) (quadPoly r1 r2)
              (fun a => C (v (.inl a)) * X) (C (v (.inr ())) * X) (fun k => C (v (.inr ()) * ε d k) * X)) := by
  have hl : ∀ j : Fin ns ⊕ Unit, (fun v : Fin ns ⊕ Unit → ℝ => v j) =O[𝓝 0] fun v => ‖v‖ := fun j =>
    IsBigO.of_bound 1 (Eventually.of_forall fun v => by rw [one_mul, norm_norm]; exact norm_le_pi_norm v j)
  have cs : UTracks (fun v : Fin ns ⊕ Unit → ℝ => sb + v ∘ .inl) sb (fun v a => C (v (.inl a)) * X) :=
    UTracks.linear sb (fun a (v : Fin ns ⊕ Unit → ℝ) => v (.inl a)) fun a => hl _
  have cl : UTracks (fun (v : Fin ns ⊕ Unit → ℝ) (_ : Unit) => v (.inr ())) 0 (fun v _ => C (v (.inr ())) * X) := by
    have := UTracks.linear (E := Fin ns ⊕ Unit → ℝ) (0 : Unit → ℝ) (fun _ (v : Fin ns ⊕ Unit → ℝ) => v (.inr ())) fun a => hl _
    simpa using this
  have ce : ∀ d, UTracks (fun (v : Fin ns ⊕ Unit → ℝ) => v (.inr ()) • ε d) 0 (fun v k => C (v (.inr ()) * ε d k) * X) := by
    intro d
    have := UTracks.linear (E := Fin ns ⊕ Unit → ℝ) (0 : Fin ne → ℝ) (fun k (v : Fin ns ⊕ Unit → ℝ) => v (.inr ()) * ε d k) fun k => by
      simp only [mul_comm _ (ε d k)]
      exact (hl _).const_mul_left _
    have e : (fun (v : Fin ns ⊕ Unit → ℝ) => v (.inr ()) • ε d)
        = fun (v : Fin ns ⊕ Unit → ℝ) k => (0 : Fin ne → ℝ) k + v (.inr ()) * ε d k := by
      funext v k
      simp
    rw [e]
    exact this
  have cx : UTracks (fun v : Fin ns ⊕ Unit → ℝ => φ (sb + v ∘ .inl) (v (.inr ()))) xb _ :=
    UTracks.at ((cs.elim cl).comp hφ (quadPoly_taylor r1 r2)) h0
  have cS : UTracks (fun v : Fin ns ⊕ Unit → ℝ => g (sb + v ∘ .inl) (φ (sb + v ∘ .inl) (v (.inr ()))) (v (.inr ()) • ε d)) sb _ :=
    UTracks.at (((cs.elim cx).elim (ce d)).comp hp.transition (quadPoly_taylor p.g1 p.g2)) hp.steady_transition
  have cX : UTracks (fun v : Fin ns ⊕ Unit → ℝ => φ (g (sb + v ∘ .inl) (φ (sb + v ∘ .inl) (v (.inr ()))) (v (.inr ()) • ε d))
      (v (.inr ()))) xb _ :=
    UTracks.at ((cS.elim cl).comp hφ (quadPoly_taylor r1 r2)) h0
  exact ((cs.elim cx).elim (cS.elim cX)).comp hp.arbitrage (quadPoly_taylor p.f1 p.f2)

/-- From the coordinates `(h, λ)` to `(s, λ)`. -/
private theorem coordinates (sb : Fin ns → ℝ) :
    Tendsto (fun y : (Fin ns → ℝ) × ℝ => (Sum.elim (y.1 - sb) (fun _ => y.2) : Fin ns ⊕ Unit → ℝ)) (𝓝 (sb, 0)) (𝓝 0) ∧
      (fun y : (Fin ns → ℝ) × ℝ => ‖(Sum.elim (y.1 - sb) (fun _ => y.2) : Fin ns ⊕ Unit → ℝ)‖ ^ 2)
        =O[𝓝 (sb, 0)] fun y : (Fin ns → ℝ) × ℝ => ‖y.1 - sb‖ ^ 2 + y.2 ^ 2 := by
  have hT : Tendsto (fun y : (Fin ns → ℝ) × ℝ => (Sum.elim (y.1 - sb) (fun _ => y.2) : Fin ns ⊕ Unit → ℝ)) (𝓝 (sb, 0)) (𝓝 0) := by
    have hc : Continuous (fun y : (Fin ns → ℝ) × ℝ => (Sum.elim (y.1 - sb) (fun _ => y.2) : Fin ns ⊕ Unit → ℝ)) := by
      refine continuous_pi fun j => ?_
      rcases j with j | j
      · simp only [Sum.elim_inl, Pi.sub_apply]; fun_prop
      · simp only [Sum.elim_inr]; fun_prop
    have := hc.tendsto (sb, 0)
    convert this using 2
    funext j
    rcases j with j | j <;> simp
  exact ⟨hT,
    (IsBigO.of_bound 1 (Eventually.of_forall fun y => by
      have hn : ‖(Sum.elim (y.1 - sb) (fun _ => y.2) : Fin ns ⊕ Unit → ℝ)‖ ≤ max ‖y.1 - sb‖ |y.2| := by
        rw [pi_norm_le_iff_of_nonneg (le_max_of_le_right (abs_nonneg _))]
        intro j
        rcases j with j | j
        · exact (norm_le_pi_norm (y.1 - sb) j).trans (le_max_left _ _)
        · exact le_max_right _ _
      rw [one_mul, norm_pow, norm_norm, Real.norm_of_nonneg (by positivity)]
      have := pow_le_pow_left₀ (norm_nonneg _) hn 2
      refine this.trans ?_
      rcases max_choice ‖y.1 - sb‖ |y.2| with e | e <;> rw [e]
      · nlinarith [sq_nonneg y.2]
      · rw [sq_abs]; nlinarith [sq_nonneg ‖y.1 - sb‖]))⟩

/-- **C163.**  Let `φ(s, λ)` be any rule with the derivatives returned by `state_perturb` at order two.  The expected
equation errors of the nonlinear model under this rule are small compared with the squared distance to the steady state plus
the squared scale of risk, near the steady state and for little risk. -/
theorem C163_residuals (hp : ProblemAt p g f sb xb) (h : StatePerturbReturns p X_s X_ss X_tt)
    {φ : (Fin ns → ℝ) → ℝ → Fin nx → ℝ} (h0 : φ sb 0 = xb)
    (hφ : Expands2 (fun y : Fin ns ⊕ Unit → ℝ => φ (y ∘ .inl) (y (.inr ()))) (Sum.elim sb 0) (ruleD1 X_s) (ruleD2 X_ss X_tt))
    {D : Type} [Fintype D] (w : D → ℝ) (ε : D → Fin ne → ℝ) (hε : Shocks w ε p.sigma) (i : Fin nx) :
    (fun y : (Fin ns → ℝ) × ℝ => equationError g f w ε φ y.1 y.2 i) =o[𝓝 (sb, 0)] fun y => ‖y.1 - sb‖ ^ 2 + y.2 ^ 2 := by
  obtain ⟨hC, -, -⟩ := state_saddle h
  obtain ⟨hreg, -⟩ := C162_regular h
  obtain ⟨solve, lsolve, qz, cut, d, hsolve, hlsolve, -, -, -, hrun⟩ := h.run
  obtain ⟨C', -, h2, h3, h4⟩ := second_inv solve lsolve qz cut hrun
  subst h2 h3
  -- in the coordinates `(h, λ)`
  have main : (fun v : Fin ns ⊕ Unit → ℝ => equationError g f w ε φ (sb + v ∘ .inl) (v (.inr ())) i)
      =o[𝓝 0] fun v => ‖v‖ ^ 2 := by
    have tr := fun d => error_tracks hp h0 hφ ε d
    have hsum : (fun v : Fin ns ⊕ Unit → ℝ => ∑ d, w d * (f (sb + v ∘ .inl) (φ (sb + v ∘ .inl) (v (.inr ())))
        (g (sb + v ∘ .inl) (φ (sb + v ∘ .inl) (v (.inr ()))) (v (.inr ()) • ε d))
        (φ (g (sb + v ∘ .inl) (φ (sb + v ∘ .inl) (v (.inr ()))) (v (.inr ()) • ε d)) (v (.inr ()))) i
        - f sb xb sb xb i
        - cf 1 (pathResidual (quadPoly p.f1 p.f2) (quadPoly p.g1 p.g2) (quadPoly (ruleD1 X_s) (ruleD2 (p.Xss X_s lsolve) X_tt))
            (fun a => C (v (.inl a)) * X) (C (v (.inr ())) * X) (fun k => C (v (.inr ()) * ε d k) * X)) i
        - cf 2 (pathResidual (quadPoly p.f1 p.f2) (quadPoly p.g1 p.g2) (quadPoly (ruleD1 X_s) (ruleD2 (p.Xss X_s lsolve) X_tt))
            (fun a => C (v (.inl a)) * X) (C (v (.inr ())) * X) (fun k => C (v (.inr ()) * ε d k) * X)) i))
        =o[𝓝 0] fun v => ‖v‖ ^ 2 :=
      IsLittleO.fun_sum fun d _ => ((tr d).small i).const_mul_left _
    refine hsum.congr_left fun v => ?_
    have hdvd := C36_second_order p solve (fun n m M R Y hY => (hsolve n m M R Y hY).2) lsolve hlsolve hp.symmetric X_s
      (first_order_of_saddle hC) (hreg 2) X_tt h4 _ _ _ (quadPoly_taylor p.f1 p.f2) (quadPoly_taylor p.g1 p.g2)
      (quadPoly_taylor (ruleD1 X_s) (ruleD2 (p.Xss X_s lsolve) X_tt)) w ε hε (fun a => v (.inl a)) (v (.inr ())) i
    rw [X_pow_dvd_iff] at hdvd
    have e1 := hdvd 1 (by norm_num)
    have e2 := hdvd 2 (by norm_num)
    simp only [map_sum, coeff_C_mul] at e1 e2
    have e1' : ∑ d, w d * cf 1 (pathResidual (quadPoly p.f1 p.f2) (quadPoly p.g1 p.g2)
        (quadPoly (ruleD1 X_s) (ruleD2 (p.Xss X_s lsolve) X_tt)) (fun a => C (v (.inl a)) * X) (C (v (.inr ())) * X)
        (fun k => C (v (.inr ()) * ε d k) * X)) i = 0 := e1
    have e2' : ∑ d, w d * cf 2 (pathResidual (quadPoly p.f1 p.f2) (quadPoly p.g1 p.g2)
        (quadPoly (ruleD1 X_s) (ruleD2 (p.Xss X_s lsolve) X_tt)) (fun a => C (v (.inl a)) * X) (C (v (.inr ())) * X)
        (fun k => C (v (.inr ()) * ε d k) * X)) i = 0 := e2
    simp only [mul_sub, Finset.sum_sub_distrib, e1', e2', sub_zero, hp.steady_arbitrage, Pi.zero_apply, mul_zero,
      Finset.sum_const_zero]
    rfl
  -- back to `(s, λ)`
  obtain ⟨hT, hO⟩ := coordinates sb
  have := (main.comp_tendsto hT).trans_isBigO hO
  refine this.congr_left fun y => ?_
  have e : sb + (Sum.elim (y.1 - sb) (fun _ => y.2) : Fin ns ⊕ Unit → ℝ) ∘ Sum.inl = y.1 := by funext j; simp
  simp only [Function.comp_apply, e, Sum.elim_inr]

private theorem second_expands (sb : Fin ns → ℝ) (xb : Fin nx → ℝ) (X_s : Fin nx → Fin ns → ℝ)
    (X_ss : Fin nx → Fin ns → Fin ns → ℝ) (X_tt : Fin nx → ℝ) :
    Expands2 (fun y : Fin ns ⊕ Unit → ℝ => secondRule sb xb X_s X_ss X_tt (y ∘ .inl) (y (.inr ()))) (Sum.elim sb 0)
      (ruleD1 X_s) (ruleD2 X_ss X_tt) := by
  intro i
  refine (isLittleO_zero _ _).congr_left fun v => ?_
  simp only [secondRule, Function.comp_apply, Pi.add_apply, Sum.elim_inl, Sum.elim_inr, Pi.zero_apply, zero_add, sub_self,
    mul_zero, Finset.sum_const_zero, add_sub_cancel_left, Fintype.sum_sum_type, ruleD1, ruleD2, zero_mul, add_zero,
    Finset.univ_unique, Finset.sum_singleton]
  simp only [ne_eq, OfNat.ofNat_ne_zero, not_false_eq_true, zero_pow, mul_zero, zero_div, add_zero]
  ring

/-- **C163, the rule of `perturb`.**  The rule built from the second-order terms is such a rule: its expected equation errors
are small compared with the squared distance to the steady state plus the squared scale of risk. -/
theorem C163_rule (hp : ProblemAt p g f sb xb) (h : StatePerturbReturns p X_s X_ss X_tt)
    {D : Type} [Fintype D] (w : D → ℝ) (ε : D → Fin ne → ℝ) (hε : Shocks w ε p.sigma) (i : Fin nx) :
    (fun y : (Fin ns → ℝ) × ℝ => equationError g f w ε (secondRule sb xb X_s X_ss X_tt) y.1 y.2 i)
      =o[𝓝 (sb, 0)] fun y => ‖y.1 - sb‖ ^ 2 + y.2 ^ 2 := by
  exact C163_residuals hp h (by funext i; simp [secondRule]) (second_expands sb xb X_s X_ss X_tt) w ε hε i

private theorem perturb_values {solve : MatSolver ℝ} (hsolve : solve.Correct) {lsolve : LinSolver ℝ}
    (hlsolve : lsolve.Correct) {qz : Matrix (Fin ns ⊕ Fin nx) (Fin ns ⊕ Fin nx) ℝ →
      Matrix (Fin ns ⊕ Fin nx) (Fin ns ⊕ Fin nx) ℝ → ℝ → QZ (Fin ns ⊕ Fin nx) ℝ} (cut : WithTop ℝ → WithTop ℝ → ℝ)
    {d : QZ (Fin ns ⊕ Fin nx) ℝ}
    (hq : qz (pencilA (.of p.f_S) (.of p.f_X)) (pencilB (.of p.g_s) (.of p.g_x) (.of p.f_s) (.of p.f_x)) (1 - 1 / 10 ^ 8) = d)
    (hd : d.Correct (pencilA (.of p.f_S) (.of p.f_X)) (pencilB (.of p.g_s) (.of p.g_x) (.of p.f_s) (.of p.f_x)))
    (hbk : (d.Triangular ∧ (∀ i, 1 < genEig d (.inl i)) ∧ ∀ j, genEig d (.inr j) < 1) ∨
      (BlanchardKahn (.of p.g_s) (.of p.g_x) (.of p.f_s) (.of p.f_x) (.of p.f_S) (.of p.f_X) ∧ d.Ordered (1 - 1 / 10 ^ 8) ∧
        SelectsStable (1 - 1 / 10 ^ 8) (pencilA (.of p.f_S) (.of p.f_X))
          (pencilB (.of p.g_s) (.of p.g_x) (.of p.f_s) (.of p.f_x))))
    {Y_s : ℝ → Fin nx → Fin ns → ℝ} {Y_ss : ℝ → Fin nx → Fin ns → Fin ns → ℝ} {Y_tt : ℝ → Fin nx → ℝ}
    (hrun : ∀ lam : ℝ, statePerturb solve lsolve qz cut (p.withRisk fun i j => lam ^ 2 * p.sigma i j) 2
      = .ok (.second (Y_s lam) (Y_ss lam) (Y_tt lam), false))
    {dr : ℝ → TaylorExp ns nx ℝ} {AB : ℝ → Option ((Fin ns → Fin ns → ℝ) × (Fin ns → Fin ne → ℝ))}
    (hdr : ∀ lam : ℝ, pertRule (p.withRisk fun i j => lam ^ 2 * p.sigma i j) sb xb (.second (Y_s lam) (Y_ss lam) (Y_tt lam))
      = .ok (some (dr lam, AB lam)))
    {nm : ℕ} {φ : (Fin ns → ℝ) → ℝ → Fin nx → ℝ} (hφ : ∀ lam s, ((dr lam).ops nm).call1 (.vec s) = .ok (.vec (φ s lam))) :
    StatePerturbReturns p (Y_s 1) (Y_ss 1) (Y_tt 1) ∧ φ = secondRule sb xb (Y_s 1) (Y_ss 1) (Y_tt 1) := by
  have e1 : (p.withRisk fun i j => (1 : ℝ) ^ 2 * p.sigma i j) = p := by
    simp [Problem.withRisk]
  have r1 : statePerturb solve lsolve qz cut (p.withRisk p.sigma) 2 = .ok (.second (Y_s 1) (Y_ss 1) (Y_tt 1), false) := by
    have := hrun 1
    rw [e1] at this
    exact this
  have h : StatePerturbReturns p (Y_s 1) (Y_ss 1) (Y_tt 1) :=
    ⟨solve, lsolve, qz, cut, d, hsolve, hlsolve, hq, hd, hbk, r1⟩
  have hval : φ = secondRule sb xb (Y_s 1) (Y_ss 1) (Y_tt 1) := by
    funext s lam
    have r2 := hrun lam
    have e2 : (fun i j => lam ^ 2 * p.sigma i j) = fun i j => lam ^ 2 * p.sigma i j + 0 * p.sigma i j := by
      funext i j
      ring
    rw [e2] at r2
    obtain ⟨-, hs, -, hss, -, -, ht⟩ := C149_second_order solve lsolve qz cut p hsolve p.sigma p.sigma (lam ^ 2) 0 _ _ _ _ _ _ _ _ _
      _ _ _ r1 r1 r2
    have hd' := hdr lam
    have hc := hφ lam s
    have hi : TaylorExp.init sb (fun i => xb i + Y_tt lam i / 2) (Y_s lam) (.two (Y_ss lam)) = .ok (dr lam) := by
      generalize dr lam = t, AB lam = u at hd' ⊢
      cases hd'
      rfl
    have hcall := ((C56_evaluates nm sb (fun i => xb i + Y_tt lam i / 2) (Y_s lam) (.two (Y_ss lam))).1 _ hi).1 s
    have e3 := hc.symm.trans hcall
    simp only [Except.ok.injEq, Pts.vec.injEq] at e3
    rw [e3]
    funext i
    simp only [taylorValue, secondRule, hs, hss, ht i, Pi.sub_apply]
    ring
  exact ⟨h, hval⟩

/-- **C163, in terms of calls.**  Let `perturb` be run at order two on the model with the covariance matrix of the shocks
multiplied by `λ²`, for every scale of risk `λ`, and let `φ(s, λ)` be the value at `s` of the rule returned.  The expected
equation errors under these rules, with shocks `λ ε`, are small compared with `|s - s*|² + λ²`. -/
theorem C163_perturb (hp : ProblemAt p g f sb xb) {solve : MatSolver ℝ} (hsolve : solve.Correct) {lsolve : LinSolver ℝ}
    (hlsolve : lsolve.Correct) {qz : Matrix (Fin ns ⊕ Fin nx) (Fin ns ⊕ Fin nx) ℝ →
      Matrix (Fin ns ⊕ Fin nx) (Fin ns ⊕ Fin nx) ℝ → ℝ → QZ (Fin ns ⊕ Fin nx) ℝ} (cut : WithTop ℝ → WithTop ℝ → ℝ)
    {d : QZ (Fin ns ⊕ Fin nx) ℝ}
    (hq : qz (pencilA (.of p.f_S) (.of p.f_X)) (pencilB (.of p.g_s) (.of p.g_x) (.of p.f_s) (.of p.f_x)) (1 - 1 / 10 ^ 8) = d)
    (hd : d.Correct (pencilA (.of p.f_S) (.of p.f_X)) (pencilB (.of p.g_s) (.of p.g_x) (.of p.f_s) (.of p.f_x)))
    (hbk : (d.Triangular ∧ (∀ i, 1 < genEig d (.inl i)) ∧ ∀ j, genEig d (.inr j) < 1) ∨
      (BlanchardKahn (.of p.g_s) (.of p.g_x) (.of p.f_s) (.of p.f_x) (.of p.f_S) (.of p.f_X) ∧ d.Ordered (1 - 1 / 10 ^ 8) ∧
        SelectsStable (1 - 1 / 10 ^ 8) (pencilA (.of p.f_S) (.of p.f_X))
          (pencilB (.of p.g_s) (.of p.g_x) (.of p.f_s) (.of p.f_x))))
    {Y_s : ℝ → Fin nx → Fin ns → ℝ} {Y_ss : ℝ → Fin nx → Fin ns → Fin ns → ℝ} {Y_tt : ℝ → Fin nx → ℝ}
    (hrun : ∀ lam : ℝ, statePerturb solve lsolve qz cut (p.withRisk fun i j => lam ^ 2 * p.sigma i j) 2
      = .ok (.second (Y_s lam) (Y_ss lam) (Y_tt lam), false))
    {dr : ℝ → TaylorExp ns nx ℝ} {AB : ℝ → Option ((Fin ns → Fin ns → ℝ) × (Fin ns → Fin ne → ℝ))}
    (hdr : ∀ lam : ℝ, pertRule (p.withRisk fun i j => lam ^ 2 * p.sigma i j) sb xb (.second (Y_s lam) (Y_ss lam) (Y_tt lam))
      = .ok (some (dr lam, AB lam)))
    {nm : ℕ} {φ : (Fin ns → ℝ) → ℝ → Fin nx → ℝ} (hφ : ∀ lam s, ((dr lam).ops nm).call1 (.vec s) = .ok (.vec (φ s lam)))
    {D : Type} [Fintype D] (w : D → ℝ) (ε : D → Fin ne → ℝ) (hε : Shocks w ε p.sigma) (i : Fin nx) :
    (fun y : (Fin ns → ℝ) × ℝ => equationError g f w ε φ y.1 y.2 i) =o[𝓝 (sb, 0)] fun y => ‖y.1 - sb‖ ^ 2 + y.2 ^ 2 := by
  obtain ⟨h, hval⟩ := perturb_values hsolve hlsolve cut hq hd hbk hrun hdr hφ
  rw [hval]
  exact C163_rule hp h w ε hε i

/-- **C163, first order.**  The rule `xb + X_s (s - sb)` returned by `perturb` at order one has expected equation errors of the
order of the squared distance to the steady state plus the squared scale of risk. -/
theorem C163_first_order (hp : ProblemAt p g f sb xb) {solve : MatSolver ℝ} (hsolve : solve.Correct) (lsolve : LinSolver ℝ)
    {qz : Matrix (Fin ns ⊕ Fin nx) (Fin ns ⊕ Fin nx) ℝ → Matrix (Fin ns ⊕ Fin nx) (Fin ns ⊕ Fin nx) ℝ → ℝ →
      QZ (Fin ns ⊕ Fin nx) ℝ} (hqz : DecomposesPencil qz p) (cut : WithTop ℝ → WithTop ℝ → ℝ) {warned : Bool}
    (hrun : statePerturb solve lsolve qz cut p 1 = .ok (.first X_s, warned))
    {dr : TaylorExp ns nx ℝ} {AB : Option ((Fin ns → Fin ns → ℝ) × (Fin ns → Fin ne → ℝ))}
    (hdr : pertRule p sb xb (.first X_s) = .ok (some (dr, AB)))
    {nm : ℕ} {φ : (Fin ns → ℝ) → Fin nx → ℝ} (hφ : ∀ s, (dr.ops nm).call1 (.vec s) = .ok (.vec (φ s)))
    {D : Type} [Fintype D] (w : D → ℝ) (ε : D → Fin ne → ℝ) (hε : Shocks w ε p.sigma) (i : Fin nx) :
    (fun y : (Fin ns → ℝ) × ℝ => equationError g f w ε (fun s _ => φ s) y.1 y.2 i)
      =O[𝓝 (sb, 0)] fun y => ‖y.1 - sb‖ ^ 2 + y.2 ^ 2 := by
  have hval : ∀ s i, φ s i = xb i + ∑ a, X_s i a * (s a - sb a) := by
    intro s i
    have hi : TaylorExp.init sb xb X_s .one = .ok dr := by
      cases hdr
      rfl
    have hcall := ((C56_evaluates nm sb xb X_s .one).1 _ hi).1 s
    have e3 := (hφ s).symm.trans hcall
    simp only [Except.ok.injEq, Pts.vec.injEq] at e3
    rw [e3]
    simp [taylorValue]
  have h0 : φ sb = xb := by funext i; simp [hval]
  have hE : Expands2 (fun y : Fin ns ⊕ Unit → ℝ => φ (y ∘ .inl)) (Sum.elim sb 0) (ruleD1 X_s) (ruleD2 (fun _ _ _ => 0) fun _ => 0) := by
    intro i
    refine (isLittleO_zero _ _).congr_left fun v => ?_
    simp only [hval, Function.comp_apply, Pi.add_apply, Sum.elim_inl, add_sub_cancel_left, sub_self, mul_zero,
      Finset.sum_const_zero, Fintype.sum_sum_type, ruleD1, ruleD2, zero_mul, add_zero, Finset.univ_unique, Finset.sum_singleton]
  have main : (fun v : Fin ns ⊕ Unit → ℝ => equationError g f w ε (fun s _ => φ s) (sb + v ∘ .inl) (v (.inr ())) i)
      =O[𝓝 0] fun v => ‖v‖ ^ 2 := by
    have tr := fun d => error_tracks (φ := fun s _ => φ s) hp h0 hE ε d
    have hsum := (IsLittleO.fun_sum fun d (_ : d ∈ Finset.univ) => ((tr d).small i).const_mul_left (w d)).isBigO.add
      (IsBigO.fun_sum fun d (_ : d ∈ Finset.univ) => ((tr d).two i).const_mul_left (w d))
    refine hsum.congr_left fun v => ?_
    have hdvd := C36_first_order solve hsolve lsolve qz p hqz hp.symmetric cut X_s warned hrun _ _ _ (quadPoly_taylor p.f1 p.f2)
      (quadPoly_taylor p.g1 p.g2) _ _ (quadPoly_taylor (ruleD1 X_s) (ruleD2 (fun _ _ _ => 0) fun _ => 0)) w ε hε
      (fun a => v (.inl a)) (v (.inr ())) i
    rw [X_pow_dvd_iff] at hdvd
    have e1 := hdvd 1 (by norm_num)
    simp only [map_sum, coeff_C_mul] at e1
    have e1' : ∑ d, w d * cf 1 (pathResidual (quadPoly p.f1 p.f2) (quadPoly p.g1 p.g2)
        (quadPoly (ruleD1 X_s) (ruleD2 (fun _ _ _ => 0) fun _ => 0)) (fun a => C (v (.inl a)) * X) (C (v (.inr ())) * X)
        (fun k => C (v (.inr ()) * ε d k) * X)) i = 0 := e1
    simp only [mul_sub, Finset.sum_sub_distrib, e1', sub_zero, hp.steady_arbitrage, Pi.zero_apply, mul_zero,
      Finset.sum_const_zero, sub_add_cancel]
    rfl
  obtain ⟨hT, hO⟩ := coordinates sb
  have := (main.comp_tendsto hT).trans hO
  refine this.congr_left fun y => ?_
  have e : sb + (Sum.elim (y.1 - sb) (fun _ => y.2) : Fin ns ⊕ Unit → ℝ) ∘ Sum.inl = y.1 := by funext j; simp
  simp only [Function.comp_apply, e, Sum.elim_inr]

/-! ### Simulated paths -/

/-- The formal path without shocks from `sb + h`. -/
private noncomputable def formalPath (p : Problem ns nx ne ℝ) (X_s : Fin nx → Fin ns → ℝ) (X_ss : Fin nx → Fin ns → Fin ns → ℝ)
    (v : Fin ns → ℝ) : ℕ → Fin ns → ℝ⟦X⟧
  | 0 => fun a => C (v a) * X
  | t + 1 => quadPoly p.g1 p.g2 (Sum.elim (Sum.elim (formalPath p X_s X_ss v t) (quadPoly X_s X_ss (formalPath p X_s X_ss v t)))
      (fun _ => C 0 * X))

private theorem path_tracks (hp : ProblemAt p g f sb xb) {ψ : (Fin ns → ℝ) → Fin nx → ℝ} (h0 : ψ sb = xb)
    (hψ : Expands2 ψ sb X_s X_ss) (t : ℕ) :
    UTracks (fun v : Fin ns → ℝ => (fun s => g s (ψ s) 0)^[t] (sb + v)) sb (fun v => formalPath p X_s X_ss v t) := by
  induction t with
  | zero =>
    exact UTracks.linear sb (fun a (v : Fin ns → ℝ) => v a) fun a =>
      IsBigO.of_bound 1 (Eventually.of_forall fun v => by rw [one_mul, norm_norm]; exact norm_le_pi_norm v a)
  | succ t ih =>
    have cx : UTracks (fun v : Fin ns → ℝ => ψ ((fun s => g s (ψ s) 0)^[t] (sb + v))) xb _ :=
      UTracks.at (ih.comp hψ (quadPoly_taylor X_s X_ss)) h0
    have ce : UTracks (fun (_ : Fin ns → ℝ) (_ : Fin ne) => (0 : ℝ)) 0 (fun _ _ => C 0 * X) := by
      have := UTracks.linear (E := Fin ns → ℝ) (0 : Fin ne → ℝ) (fun _ (_ : Fin ns → ℝ) => 0) fun a => isBigO_zero _ _
      simpa using this
    have cS : UTracks (fun v : Fin ns → ℝ => g ((fun s => g s (ψ s) 0)^[t] (sb + v)) (ψ ((fun s => g s (ψ s) 0)^[t] (sb + v))) 0) sb _ :=
      UTracks.at (((ih.elim cx).elim ce).comp hp.transition (quadPoly_taylor p.g1 p.g2)) hp.steady_transition
    simp only [Function.iterate_succ_apply']
    exact cS

private theorem tracks_close {E J : Type} [NormedAddCommGroup E] [Fintype J] {u u' : E → J → ℝ} {u0 : J → ℝ} {z : E → J → ℝ⟦X⟧}
    (h : UTracks u u0 z) (h' : UTracks u' u0 z) : (fun v => u v - u' v) =o[𝓝 (0 : E)] fun v => ‖v‖ ^ 2 := by
  rw [isLittleO_pi]
  intro j
  refine ((h.small j).sub (h'.small j)).congr_left fun v => ?_
  simp only [Pi.sub_apply]
  ring

/-- **C162, simulations.**  Without shocks, `simulate` with the second-order rule (of the model without risk, where the
correction for risk is zero) and with the solution give, from states near the steady state, states and controls that differ by
little compared with the squared initial distance, at every date.  The hypotheses are those of `C162_second_order`, met by `asset2_case`. -/
theorem C162_paths (hp : ProblemAt p g f sb xb) (h : StatePerturbReturns p X_s X_ss X_tt)
    {φ : (Fin ns → ℝ) → Fin nx → ℝ}
    (hs : StableSolution (nm := ne) (fun _ s x e => g s x e) (fun _ s x _ S X => f s x S X) 0 sb xb φ)
    {Y_s : Fin nx → Fin ns → ℝ} {Y_ss : Fin nx → Fin ns → Fin ns → ℝ} (hφ : Expands2 φ sb Y_s Y_ss) (T t : ℕ)
    (ε : ℝ) (hε : 0 < ε) :
    ∀ᶠ s0 in 𝓝 sb, ∀ sim sim' q q',
      simulateDriven (fun (_ : Fin ne → ℝ) s x e => g s x e) (fun _ s => secondRule sb xb X_s X_ss X_tt s 0) s0 T
        (List.replicate T 0) = .ok sim →
      simulateDriven (fun (_ : Fin ne → ℝ) s x e => g s x e) (fun _ => φ) s0 T (List.replicate T 0) = .ok sim' →
      sim[t]? = some q → sim'[t]? = some q' →
      ‖q.1 - q'.1‖ ≤ ε * ‖s0 - sb‖ ^ 2 ∧ ‖q.2 - q'.2‖ ≤ ε * ‖s0 - sb‖ ^ 2 := by
  have hX := C162_second_order hp h hs hφ
  set ψ : (Fin ns → ℝ) → Fin nx → ℝ := fun s => secondRule sb xb X_s X_ss X_tt s 0 with hψ
  have h0 : ψ sb = xb := by funext i; simp [hψ, secondRule]
  have hE : Expands2 ψ sb X_s X_ss := by
    intro i
    refine (isLittleO_zero _ _).congr_left fun v => ?_
    simp [hψ, secondRule]
    ring
  have a1 := path_tracks hp h0 hE t
  have a2 := path_tracks hp hs.steady hX t
  have k1 := (tracks_close a1 a2).def hε
  have k2 := (tracks_close (UTracks.at (a1.comp hE (quadPoly_taylor X_s X_ss)) h0)
    (UTracks.at (a2.comp hX (quadPoly_taylor X_s X_ss)) hs.steady)).def hε
  have hT : Tendsto (fun s : Fin ns → ℝ => s - sb) (𝓝 sb) (𝓝 0) := by
    have hc : Continuous fun s : Fin ns → ℝ => s - sb := continuous_id.sub continuous_const
    simpa using hc.tendsto sb
  filter_upwards [hT.eventually k1, hT.eventually k2] with s0 b1 b2 sim sim' q q' hsim hsim' hq hq'
  obtain ⟨p1, p2⟩ := driven_run hsim hq
  obtain ⟨q1, q2⟩ := driven_run hsim' hq'
  rw [p2, q2, p1, q1]
  rw [add_sub_cancel, norm_pow, norm_norm] at b1 b2
  exact ⟨b1, b2⟩

/-! ### Rules with small equation errors -/

private theorem rescale_const (t a : ℝ) : rescale t (C a) = C a := by
  ext n
  rw [coeff_rescale, coeff_C]
  split_ifs with h
  · rw [h, pow_zero, one_mul]
  · rw [mul_zero]

private theorem rescale_curve (t a : ℝ) : rescale t (C a * X) = C (t * a) * X := by
  rw [map_mul, rescale_X, rescale_const, ← mul_assoc, ← map_mul, mul_comm a t]

private theorem rescale_quadPoly {I J : Type} [Fintype J] (f1 : I → J → ℝ) (f2 : I → J → J → ℝ) (t : ℝ) (z : J → ℝ⟦X⟧) (i : I) :
    rescale t (quadPoly f1 f2 z i) = quadPoly f1 f2 (fun j => rescale t (z j)) i := by
  simp only [quadPoly, map_add, map_sum, map_mul, rescale_const]

private theorem rescale_path (f1 : Fin nx → ZIdx ns nx → ℝ) (f2 : Fin nx → ZIdx ns nx → ZIdx ns nx → ℝ)
    (g1 : Fin ns → MIdx ns nx ne → ℝ) (g2 : Fin ns → MIdx ns nx ne → MIdx ns nx ne → ℝ)
    (r1 : Fin nx → (Fin ns ⊕ Unit) → ℝ) (r2 : Fin nx → (Fin ns ⊕ Unit) → (Fin ns ⊕ Unit) → ℝ) (t : ℝ)
    (a : Fin ns → ℝ⟦X⟧) (l : ℝ⟦X⟧) (e : Fin ne → ℝ⟦X⟧) (i : Fin nx) :
    rescale t (pathResidual (quadPoly f1 f2) (quadPoly g1 g2) (quadPoly r1 r2) a l e i)
      = pathResidual (quadPoly f1 f2) (quadPoly g1 g2) (quadPoly r1 r2) (fun j => rescale t (a j)) (rescale t l)
          (fun j => rescale t (e j)) i := by
  have el : ∀ {I J : Type} (u : I → ℝ⟦X⟧) (v : J → ℝ⟦X⟧),
      (fun j => rescale t (Sum.elim u v j)) = Sum.elim (fun j => rescale t (u j)) (fun j => rescale t (v j)) := by
    intro I J u v
    funext j
    rcases j with j | j <;> rfl
  simp only [pathResidual, rescale_quadPoly, el]

private theorem zero_of_little {a b : ℝ} (h1 : (fun t : ℝ => t * a + t ^ 2 * b) =o[𝓝 0] fun t => t ^ 2) : a = 0 ∧ b = 0 := by
  have h2 : ∀ ε > 0, ∀ᶠ t in 𝓝[>] (0 : ℝ), |a + b * t| ≤ ε * t := by
    intro ε hε
    filter_upwards [nhdsWithin_le_nhds (h1.bound hε), self_mem_nhdsWithin] with t ht ht0
    have ht0 : 0 < t := ht0
    have e : t * a + t ^ 2 * b = (a + b * t) * t := by ring
    rw [e, norm_mul, norm_pow, Real.norm_of_nonneg ht0.le, Real.norm_eq_abs, pow_two, ← mul_assoc] at ht
    exact le_of_mul_le_mul_right ht ht0
  have ha : a = 0 := by
    have t1 : Tendsto (fun t : ℝ => |a + b * t|) (𝓝[>] 0) (𝓝 |a + b * 0|) :=
      (Continuous.tendsto (by fun_prop) 0).mono_left nhdsWithin_le_nhds
    have t2 : Tendsto (fun t : ℝ => (1 : ℝ) * t) (𝓝[>] 0) (𝓝 (1 * 0)) :=
      (Continuous.tendsto (by fun_prop) 0).mono_left nhdsWithin_le_nhds
    have := le_of_tendsto_of_tendsto t1 t2 (h2 1 one_pos)
    rw [mul_zero, mul_zero, add_zero] at this
    exact abs_nonpos_iff.1 this
  refine ⟨ha, ?_⟩
  rw [← abs_nonpos_iff]
  refine le_of_forall_pos_le_add fun ε hε => ?_
  obtain ⟨t, ht, ht0⟩ := ((h2 ε hε).and self_mem_nhdsWithin).exists
  have ht0 : 0 < t := ht0
  rw [ha, zero_add, abs_mul, abs_of_pos ht0] at ht
  rw [zero_add]
  exact le_of_mul_le_mul_right ht ht0

private theorem residual_zero (hp : ProblemAt p g f sb xb) {φ : (Fin ns → ℝ) → ℝ → Fin nx → ℝ} (h0 : φ sb 0 = xb)
    {r1 : Fin nx → (Fin ns ⊕ Unit) → ℝ} {r2 : Fin nx → (Fin ns ⊕ Unit) → (Fin ns ⊕ Unit) → ℝ}
    (hφ : Expands2 (fun y : Fin ns ⊕ Unit → ℝ => φ (y ∘ .inl) (y (.inr ()))) (Sum.elim sb 0) r1 r2)
    {D : Type} [Fintype D] (w : D → ℝ) (ε : D → Fin ne → ℝ)
    (hres : ∀ i, (fun y : (Fin ns → ℝ) × ℝ => equationError g f w ε φ y.1 y.2 i)
      =o[𝓝 (sb, 0)] fun y => ‖y.1 - sb‖ ^ 2 + y.2 ^ 2) (V : Fin ns ⊕ Unit → ℝ) (i : Fin nx) :
    (∑ d, w d * cf 1 (pathResidual (quadPoly p.f1 p.f2) (quadPoly p.g1 p.g2) (quadPoly r1 r2)
      (fun a => C (V (.inl a)) * X) (C (V (.inr ())) * X) (fun k => C (V (.inr ()) * ε d k) * X)) i = 0) ∧
    ∑ d, w d * cf 2 (pathResidual (quadPoly p.f1 p.f2) (quadPoly p.g1 p.g2) (quadPoly r1 r2)
      (fun a => C (V (.inl a)) * X) (C (V (.inr ())) * X) (fun k => C (V (.inr ()) * ε d k) * X)) i = 0 := by
  have tr := fun d => error_tracks hp h0 hφ ε d
  set P : D → (Fin ns ⊕ Unit → ℝ) → Fin nx → ℝ⟦X⟧ := fun d v =>
    pathResidual (quadPoly p.f1 p.f2) (quadPoly p.g1 p.g2) (quadPoly r1 r2)
      (fun a => C (v (.inl a)) * X) (C (v (.inr ())) * X) (fun k => C (v (.inr ()) * ε d k) * X) with hP
  have hom : ∀ (d : D) (t : ℝ) (n : ℕ), cf n (P d (t • V)) i = t ^ n * cf n (P d V) i := by
    intro d t n
    have := rescale_path p.f1 p.f2 p.g1 p.g2 r1 r2 t (fun a => C (V (.inl a)) * X) (C (V (.inr ())) * X)
      (fun k => C (V (.inr ()) * ε d k) * X) i
    simp only [rescale_curve] at this
    have e : P d (t • V) i = rescale t (P d V i) := by
      rw [hP]
      simp only [Pi.smul_apply, smul_eq_mul, mul_assoc]
      exact this.symm
    rw [cf, e, coeff_rescale]
    rfl
  have hline : Tendsto (fun t : ℝ => t • V) (𝓝 0) (𝓝 0) := by
    have hc : Continuous fun t : ℝ => t • V := by fun_prop
    simpa using hc.tendsto 0
  have hnorm : (fun t : ℝ => ‖t • V‖ ^ 2) =O[𝓝 (0 : ℝ)] fun t => t ^ 2 :=
    IsBigO.of_bound (‖V‖ ^ 2) (Eventually.of_forall fun t => by
      rw [norm_pow, norm_norm, norm_smul, norm_pow, mul_pow, mul_comm])
  -- the expected equation error along the line, in two ways
  have k1 : (fun t : ℝ => ∑ d, w d * (f (sb + (t • V) ∘ .inl) (φ (sb + (t • V) ∘ .inl) ((t • V) (.inr ())))
        (g (sb + (t • V) ∘ .inl) (φ (sb + (t • V) ∘ .inl) ((t • V) (.inr ()))) ((t • V) (.inr ()) • ε d))
        (φ (g (sb + (t • V) ∘ .inl) (φ (sb + (t • V) ∘ .inl) ((t • V) (.inr ()))) ((t • V) (.inr ()) • ε d)) ((t • V) (.inr ()))) i
        - f sb xb sb xb i - cf 1 (P d (t • V)) i - cf 2 (P d (t • V)) i)) =o[𝓝 0] fun t => t ^ 2 :=
    IsLittleO.fun_sum fun d _ => IsLittleO.const_mul_left ((((tr d).small i).comp_tendsto hline).trans_isBigO hnorm) _
  have hT : Tendsto (fun t : ℝ => ((sb + (t • V) ∘ .inl, (t • V) (.inr ())) : (Fin ns → ℝ) × ℝ)) (𝓝 0) (𝓝 (sb, 0)) := by
    have hc : Continuous fun t : ℝ => ((sb + (t • V) ∘ .inl, (t • V) (.inr ())) : (Fin ns → ℝ) × ℝ) := by
      refine Continuous.prodMk (continuous_pi fun j => ?_) ?_
      · simp only [Pi.add_apply, Function.comp_apply, Pi.smul_apply, smul_eq_mul]; fun_prop
      · simp only [Pi.smul_apply, smul_eq_mul]; fun_prop
    have := hc.tendsto 0
    convert this using 2
    ext <;> simp
  have k2 := ((hres i).comp_tendsto hT).trans_isBigO (k := fun t : ℝ => t ^ 2)
    (IsBigO.of_bound (‖V ∘ Sum.inl‖ ^ 2 + V (.inr ()) ^ 2) (Eventually.of_forall fun t => by
      have e : (t • V) ∘ Sum.inl = t • (V ∘ Sum.inl) := rfl
      rw [Function.comp_apply, e, add_sub_cancel_left]
      simp only [norm_smul, Pi.smul_apply, smul_eq_mul, norm_pow]
      rw [Real.norm_of_nonneg (by positivity)]
      simp only [mul_pow, Real.norm_eq_abs, sq_abs]
      apply le_of_eq
      ring))
  have k3 : (fun t : ℝ => t * ∑ d, w d * cf 1 (P d V) i + t ^ 2 * ∑ d, w d * cf 2 (P d V) i) =o[𝓝 0] fun t => t ^ 2 := by
    refine (k2.sub k1).congr_left fun t => ?_
    simp only [hom, mul_sub, Finset.sum_sub_distrib, hp.steady_arbitrage, Pi.zero_apply, mul_zero, Finset.sum_const_zero, sub_zero,
      Function.comp_apply, equationError, pow_one, Finset.mul_sum]
    rw [sub_sub, sub_sub_cancel]
    congr 1 <;> exact Finset.sum_congr rfl fun d _ => by ring
  exact zero_of_little k3

/-- **C163, converse.**  A rule `φ(s, λ)` with the first-order terms returned and an expansion up to second order, whose
expected equation errors are small compared with `|s - s*|² + λ²`, has the second-order terms and the correction for risk that
`state_perturb` returns. -/
theorem C163_unique (hp : ProblemAt p g f sb xb) (h : StatePerturbReturns p X_s X_ss X_tt)
    {φ : (Fin ns → ℝ) → ℝ → Fin nx → ℝ} (h0 : φ sb 0 = xb) {Y_ss : Fin nx → Fin ns → Fin ns → ℝ} {Y_tt : Fin nx → ℝ}
    (hφ : Expands2 (fun y : Fin ns ⊕ Unit → ℝ => φ (y ∘ .inl) (y (.inr ()))) (Sum.elim sb 0) (ruleD1 X_s) (ruleD2 Y_ss Y_tt))
    {D : Type} [Fintype D] (w : D → ℝ) (ε : D → Fin ne → ℝ) (hε : Shocks w ε p.sigma)
    (hres : ∀ i, (fun y : (Fin ns → ℝ) × ℝ => equationError g f w ε φ y.1 y.2 i)
      =o[𝓝 (sb, 0)] fun y => ‖y.1 - sb‖ ^ 2 + y.2 ^ 2) :
    (∀ (i : Fin nx) (v : Fin ns → ℝ), ∑ a, ∑ b, Y_ss i a b * v a * v b = ∑ a, ∑ b, X_ss i a b * v a * v b) ∧
      Y_tt = X_tt := by
  refine C162_risk h hp.symmetric _ _ _ (quadPoly_taylor p.f1 p.f2) (quadPoly_taylor p.g1 p.g2) Y_ss Y_tt
    (quadPoly_taylor (ruleD1 X_s) (ruleD2 Y_ss Y_tt)) w ε hε fun v μ i => ?_
  have tr := fun d => error_tracks hp h0 hφ ε d
  set P : D → (Fin ns ⊕ Unit → ℝ) → Fin nx → ℝ⟦X⟧ := fun d v =>
    pathResidual (quadPoly p.f1 p.f2) (quadPoly p.g1 p.g2) (quadPoly (ruleD1 X_s) (ruleD2 Y_ss Y_tt))
      (fun a => C (v (.inl a)) * X) (C (v (.inr ())) * X) (fun k => C (v (.inr ()) * ε d k) * X) with hP
  set V : Fin ns ⊕ Unit → ℝ := Sum.elim v fun _ => μ with hV
  obtain ⟨z1, z2⟩ := residual_zero hp h0 hφ w ε hres V i
  refine X_pow_dvd_iff.2 fun k hk => ?_
  have hc : ∀ n, coeff n (∑ d, C (w d) * P d V i) = ∑ d, w d * cf n (P d V) i := by
    intro n
    simp only [map_sum, coeff_C_mul]
    rfl
  change coeff k (∑ d, C (w d) * P d V i) = 0
  rw [hc]
  interval_cases k
  · refine Finset.sum_eq_zero fun d _ => ?_
    have := congrFun ((tr d).zero V) i
    change cf 0 (P d V) i = 0 at this
    rw [this, mul_zero]
  · exact z1
  · exact z2

/-- **C163, certainty equivalence.**  The rule need not be assumed insensitive to risk at first order: if `φ(s, λ)` has the
first-order terms returned in the states, any first-order term `y` in the scale of risk and any second-order terms `Y`, and its
expected equation errors are small compared with `‖s - s*‖² + λ²`, then `y = 0`, the mixed terms of states and risk vanish, and
the other second-order terms are those returned. -/
theorem C163_certainty_equivalence (hp : ProblemAt p g f sb xb) (h : StatePerturbReturns p X_s X_ss X_tt)
    {φ : (Fin ns → ℝ) → ℝ → Fin nx → ℝ} (h0 : φ sb 0 = xb) {y : Fin nx → ℝ}
    {Y : Fin nx → (Fin ns ⊕ Unit) → (Fin ns ⊕ Unit) → ℝ}
    (hφ : Expands2 (fun z : Fin ns ⊕ Unit → ℝ => φ (z ∘ .inl) (z (.inr ()))) (Sum.elim sb 0)
      (fun i => Sum.elim (X_s i) fun _ => y i) Y)
    {D : Type} [Fintype D] (w : D → ℝ) (ε : D → Fin ne → ℝ) (hε : Shocks w ε p.sigma)
    (hres : ∀ i, (fun z : (Fin ns → ℝ) × ℝ => equationError g f w ε φ z.1 z.2 i)
      =o[𝓝 (sb, 0)] fun z => ‖z.1 - sb‖ ^ 2 + z.2 ^ 2) :
    y = 0 ∧ (∀ i a, Y i (.inl a) (.inr ()) + Y i (.inr ()) (.inl a) = 0) ∧
      (∀ (i : Fin nx) (v : Fin ns → ℝ), ∑ a, ∑ b, Y i (.inl a) (.inl b) * v a * v b = ∑ a, ∑ b, X_ss i a b * v a * v b) ∧
      ∀ i, Y i (.inr ()) (.inr ()) = X_tt i := by
  obtain ⟨hreg, hinj⟩ := C162_regular h
  obtain ⟨solve, lsolve, qz, cut, d, hsolve, hlsolve, -, -, -, hpp⟩ := h.run
  obtain ⟨C', -, h2, h3, h4⟩ := second_inv solve lsolve qz cut hpp
  subst h2 h3
  refine C36_certainty_equivalence p solve (fun n m M R Y hY => (hsolve n m M R Y hY).2) lsolve hlsolve hp.symmetric X_s
    (hreg 1) (hreg 2) hinj X_tt h4 _ _ _ (quadPoly_taylor p.f1 p.f2) (quadPoly_taylor p.g1 p.g2) y Y
    (quadPoly_taylor (fun i => Sum.elim (X_s i) fun _ => y i) Y) w ε hε fun v μ i => ?_
  have tr := fun d => error_tracks hp h0 hφ ε d
  set P : D → (Fin ns ⊕ Unit → ℝ) → Fin nx → ℝ⟦X⟧ := fun d v =>
    pathResidual (quadPoly p.f1 p.f2) (quadPoly p.g1 p.g2) (quadPoly (fun i => Sum.elim (X_s i) fun _ => y i) Y)
      (fun a => C (v (.inl a)) * X) (C (v (.inr ())) * X) (fun k => C (v (.inr ()) * ε d k) * X) with hP
  set V : Fin ns ⊕ Unit → ℝ := Sum.elim v fun _ => μ with hV
  obtain ⟨z1, z2⟩ := residual_zero hp h0 hφ w ε hres V i
  refine X_pow_dvd_iff.2 fun k hk => ?_
  have hc : ∀ n, coeff n (∑ d, C (w d) * P d V i) = ∑ d, w d * cf n (P d V) i := by
    intro n
    simp only [map_sum, coeff_C_mul]
    rfl
  change coeff k (∑ d, C (w d) * P d V i) = 0
  rw [hc]
  interval_cases k
  · refine Finset.sum_eq_zero fun d _ => ?_
    have := congrFun ((tr d).zero V) i
    change cf 0 (P d V) i = 0 at this
    rw [this, mul_zero]
  · exact z1
  · exact z2

/-- The formal path with shocks. -/
private noncomputable def formalRun (p : Problem ns nx ne ℝ) (X_s : Fin nx → Fin ns → ℝ) (X_ss : Fin nx → Fin ns → Fin ns → ℝ)
    (X_tt : Fin nx → ℝ) (lam : ℝ) (es : List (Fin ne → ℝ)) (z0 : Fin ns → ℝ⟦X⟧) : Fin ns → ℝ⟦X⟧ :=
  es.foldl (fun z e => quadPoly p.g1 p.g2 (Sum.elim (Sum.elim z (quadPoly (ruleD1 X_s) (ruleD2 X_ss X_tt)
    (Sum.elim z fun _ => C lam * X))) fun k => C (lam * e k) * X)) z0

private theorem run_tracks (hp : ProblemAt p g f sb xb) {φ : (Fin ns → ℝ) → ℝ → Fin nx → ℝ} (h0 : φ sb 0 = xb)
    (hφ : Expands2 (fun y : Fin ns ⊕ Unit → ℝ => φ (y ∘ .inl) (y (.inr ()))) (Sum.elim sb 0) (ruleD1 X_s) (ruleD2 X_ss X_tt))
    (es : List (Fin ne → ℝ)) : ∀ (u : (Fin ns ⊕ Unit → ℝ) → Fin ns → ℝ) (z0 : (Fin ns ⊕ Unit → ℝ) → Fin ns → ℝ⟦X⟧),
    UTracks u sb z0 →
    UTracks (fun v => es.foldl (fun s e => g s (φ s (v (.inr ()))) (v (.inr ()) • e)) (u v)) sb
        (fun v => formalRun p X_s X_ss X_tt (v (.inr ())) es (z0 v)) ∧
      UTracks (fun v => φ (es.foldl (fun s e => g s (φ s (v (.inr ()))) (v (.inr ()) • e)) (u v)) (v (.inr ()))) xb
        (fun v => quadPoly (ruleD1 X_s) (ruleD2 X_ss X_tt)
          (Sum.elim (formalRun p X_s X_ss X_tt (v (.inr ())) es (z0 v)) fun _ => C (v (.inr ())) * X)) := by
  have hl : ∀ j : Fin ns ⊕ Unit, (fun v : Fin ns ⊕ Unit → ℝ => v j) =O[𝓝 0] fun v => ‖v‖ := fun j =>
    IsBigO.of_bound 1 (Eventually.of_forall fun v => by rw [one_mul, norm_norm]; exact norm_le_pi_norm v j)
  have cl : UTracks (fun (v : Fin ns ⊕ Unit → ℝ) (_ : Unit) => v (.inr ())) 0 (fun v _ => C (v (.inr ())) * X) := by
    have := UTracks.linear (E := Fin ns ⊕ Unit → ℝ) (0 : Unit → ℝ) (fun _ (v : Fin ns ⊕ Unit → ℝ) => v (.inr ())) fun a => hl _
    simpa using this
  have cx : ∀ {u : (Fin ns ⊕ Unit → ℝ) → Fin ns → ℝ} {z0 : (Fin ns ⊕ Unit → ℝ) → Fin ns → ℝ⟦X⟧}, UTracks u sb z0 →
      UTracks (fun v : Fin ns ⊕ Unit → ℝ => φ (u v) (v (.inr ()))) xb
        (fun v => quadPoly (ruleD1 X_s) (ruleD2 X_ss X_tt) (Sum.elim (z0 v) fun _ => C (v (.inr ())) * X)) :=
    fun cs => UTracks.at ((cs.elim cl).comp hφ (quadPoly_taylor (ruleD1 X_s) (ruleD2 X_ss X_tt))) h0
  induction es with
  | nil => exact fun u z0 cs => ⟨cs, cx cs⟩
  | cons e es ih =>
    intro u z0 cs
    have ce : UTracks (fun (v : Fin ns ⊕ Unit → ℝ) => v (.inr ()) • e) 0 (fun v k => C (v (.inr ()) * e k) * X) := by
      have := UTracks.linear (E := Fin ns ⊕ Unit → ℝ) (0 : Fin ne → ℝ) (fun k (v : Fin ns ⊕ Unit → ℝ) => v (.inr ()) * e k) fun k => by
        simp only [mul_comm _ (e k)]
        exact (hl _).const_mul_left _
      have e' : (fun (v : Fin ns ⊕ Unit → ℝ) => v (.inr ()) • e)
          = fun (v : Fin ns ⊕ Unit → ℝ) k => (0 : Fin ne → ℝ) k + v (.inr ()) * e k := by
        funext v k
        simp
      rw [e']
      exact this
    exact ih _ _ (UTracks.at (((cs.elim (cx cs)).elim ce).comp hp.transition (quadPoly_taylor p.g1 p.g2)) hp.steady_transition)

private theorem loop_fold (g : (Fin ns → ℝ) → (Fin nx → ℝ) → (Fin ne → ℝ) → Fin ns → ℝ) (ψ : (Fin ns → ℝ) → Fin nx → ℝ)
    (ms : List (Fin ne → ℝ)) : ∀ (m0 : Fin ne → ℝ) (s0 : Fin ns → ℝ) (t : ℕ) (q : (Fin ns → ℝ) × (Fin nx → ℝ)),
    (simLoop (fun (_ : Fin ne → ℝ) s x e => g s x e) (fun _ => ψ) m0 s0 ms)[t]? = some q →
      q.1 = (ms.take t).foldl (fun s e => g s (ψ s) e) s0 ∧ q.2 = ψ q.1 := by
  induction ms with
  | nil => intro m0 s0 t q h; simp [simLoop] at h
  | cons m ms ih =>
    intro m0 s0 t q h
    rw [simLoop] at h
    cases t with
    | zero =>
      simp only [List.getElem?_cons_zero, Option.some.injEq] at h
      subst h
      exact ⟨rfl, rfl⟩
    | succ t =>
      rw [List.getElem?_cons_succ] at h
      exact ih m _ t q h

private theorem driven_fold {g : (Fin ns → ℝ) → (Fin nx → ℝ) → (Fin ne → ℝ) → Fin ns → ℝ} {ψ : (Fin ns → ℝ) → Fin nx → ℝ}
    {ms : List (Fin ne → ℝ)} {s0 : Fin ns → ℝ} {T : ℕ} {sim}
    (hsim : simulateDriven (fun (_ : Fin ne → ℝ) s x e => g s x e) (fun _ => ψ) s0 T ms = .ok sim) {t : ℕ} {q}
    (hq : sim[t]? = some q) :
    q.1 = ((ms.take T).take t).foldl (fun s e => g s (ψ s) e) s0 ∧ q.2 = ψ q.1 := by
  unfold simulateDriven at hsim
  split_ifs at hsim
  cases ms with
  | nil => cases hsim
  | cons m ms =>
    simp only [firstRows] at hsim
    split_ifs at hsim
    · cases hsim
    · cases hsim
      exact loop_fold g ψ _ _ _ t q hq

/-- **C163, simulations.**  Let `φ(s, λ)` be a rule with the first-order terms returned and an expansion up to second order,
whose expected equation errors are small compared with `|s - s*|² + λ²` (so that it solves the model up to second order).
`simulate` with the same shocks `λ e₀, λ e₁, …` under the second-order rule of `perturb` and under `φ` gives, at every date,
states and controls that differ by little compared with `|s₀ - s*|² + λ²`. -/
theorem C163_simulations (hp : ProblemAt p g f sb xb) (h : StatePerturbReturns p X_s X_ss X_tt)
    {φ : (Fin ns → ℝ) → ℝ → Fin nx → ℝ} (h0 : φ sb 0 = xb) {Y_ss : Fin nx → Fin ns → Fin ns → ℝ} {Y_tt : Fin nx → ℝ}
    (hφ : Expands2 (fun y : Fin ns ⊕ Unit → ℝ => φ (y ∘ .inl) (y (.inr ()))) (Sum.elim sb 0) (ruleD1 X_s) (ruleD2 Y_ss Y_tt))
    {D : Type} [Fintype D] (w : D → ℝ) (ε : D → Fin ne → ℝ) (hε : Shocks w ε p.sigma)
    (hres : ∀ i, (fun y : (Fin ns → ℝ) × ℝ => equationError g f w ε φ y.1 y.2 i)
      =o[𝓝 (sb, 0)] fun y => ‖y.1 - sb‖ ^ 2 + y.2 ^ 2)
    (es : List (Fin ne → ℝ)) (T t : ℕ) (η : ℝ) (hη : 0 < η) :
    ∀ᶠ y : (Fin ns → ℝ) × ℝ in 𝓝 (sb, 0), ∀ sim sim' q q',
      simulateDriven (fun (_ : Fin ne → ℝ) s x e => g s x e) (fun _ s => secondRule sb xb X_s X_ss X_tt s y.2) y.1 T
        (es.map fun e => y.2 • e) = .ok sim →
      simulateDriven (fun (_ : Fin ne → ℝ) s x e => g s x e) (fun _ s => φ s y.2) y.1 T (es.map fun e => y.2 • e) = .ok sim' →
      sim[t]? = some q → sim'[t]? = some q' →
      ‖q.1 - q'.1‖ ≤ η * (‖y.1 - sb‖ ^ 2 + y.2 ^ 2) ∧ ‖q.2 - q'.2‖ ≤ η * (‖y.1 - sb‖ ^ 2 + y.2 ^ 2) := by
  obtain ⟨hss, htt⟩ := C163_unique hp h h0 hφ w ε hε hres
  subst htt
  have hφ' : Expands2 (fun y : Fin ns ⊕ Unit → ℝ => φ (y ∘ .inl) (y (.inr ()))) (Sum.elim sb 0) (ruleD1 X_s) (ruleD2 X_ss Y_tt) := by
    intro i
    refine (hφ i).congr_left fun v => ?_
    have := hss i fun a => v (.inl a)
    simp only [mul_assoc] at this
    simp only [Fintype.sum_sum_type, ruleD2, zero_mul, Finset.sum_const_zero, add_zero, zero_add, this]
  have hE := second_expands (ns := ns) (nx := nx) sb xb X_s X_ss Y_tt
  have h0E : secondRule sb xb X_s X_ss Y_tt sb 0 = xb := by funext i; simp [secondRule]
  have hl : ∀ j : Fin ns ⊕ Unit, (fun v : Fin ns ⊕ Unit → ℝ => v j) =O[𝓝 0] fun v => ‖v‖ := fun j =>
    IsBigO.of_bound 1 (Eventually.of_forall fun v => by rw [one_mul, norm_norm]; exact norm_le_pi_norm v j)
  have cs : UTracks (fun v : Fin ns ⊕ Unit → ℝ => sb + v ∘ .inl) sb (fun v a => C (v (.inl a)) * X) :=
    UTracks.linear sb (fun a (v : Fin ns ⊕ Unit → ℝ) => v (.inl a)) fun a => hl _
  obtain ⟨a1, a2⟩ := run_tracks hp h0E hE ((es.take T).take t) _ _ cs
  obtain ⟨b1, b2⟩ := run_tracks hp h0 hφ' ((es.take T).take t) _ _ cs
  obtain ⟨hT, hO⟩ := coordinates sb
  have k1 := (((tracks_close a1 b1).comp_tendsto hT).trans_isBigO hO).def hη
  have k2 := (((tracks_close a2 b2).comp_tendsto hT).trans_isBigO hO).def hη
  filter_upwards [k1, k2] with y c1 c2 sim sim' q q' hsim hsim' hq hq'
  obtain ⟨p1, p2⟩ := driven_fold hsim hq
  obtain ⟨q1, q2⟩ := driven_fold hsim' hq'
  rw [p2, q2, p1, q1]
  have e : sb + (Sum.elim (y.1 - sb) (fun _ => y.2) : Fin ns ⊕ Unit → ℝ) ∘ Sum.inl = y.1 := by funext j; simp
  simp only [Function.comp_apply, e, Sum.elim_inr] at c1 c2
  rw [Real.norm_of_nonneg (by positivity)] at c1 c2
  simp only [← List.map_take, List.foldl_map]
  exact ⟨c1, c2⟩

/-- **C163, simulations, in terms of calls.**  Let `ψ(s, λ)` be the values of the rules that `perturb` returns at order two for
the covariance matrices `λ² Σ`, and `φ(s, λ)` a rule with the same first-order terms that solves the model up to second order.
`simulate` with the same shocks `λ e₀, λ e₁, …` under both gives, at every date, states and controls that differ by little
compared with `|s₀ - s*|² + λ²`. -/
theorem C163_perturb_simulations (hp : ProblemAt p g f sb xb) {solve : MatSolver ℝ} (hsolve : solve.Correct) {lsolve : LinSolver ℝ}
    (hlsolve : lsolve.Correct) {qz : Matrix (Fin ns ⊕ Fin nx) (Fin ns ⊕ Fin nx) ℝ →
      Matrix (Fin ns ⊕ Fin nx) (Fin ns ⊕ Fin nx) ℝ → ℝ → QZ (Fin ns ⊕ Fin nx) ℝ} (cut : WithTop ℝ → WithTop ℝ → ℝ)
    {d : QZ (Fin ns ⊕ Fin nx) ℝ}
    (hq : qz (pencilA (.of p.f_S) (.of p.f_X)) (pencilB (.of p.g_s) (.of p.g_x) (.of p.f_s) (.of p.f_x)) (1 - 1 / 10 ^ 8) = d)
    (hd : d.Correct (pencilA (.of p.f_S) (.of p.f_X)) (pencilB (.of p.g_s) (.of p.g_x) (.of p.f_s) (.of p.f_x)))
    (hbk : (d.Triangular ∧ (∀ i, 1 < genEig d (.inl i)) ∧ ∀ j, genEig d (.inr j) < 1) ∨
      (BlanchardKahn (.of p.g_s) (.of p.g_x) (.of p.f_s) (.of p.f_x) (.of p.f_S) (.of p.f_X) ∧ d.Ordered (1 - 1 / 10 ^ 8) ∧
        SelectsStable (1 - 1 / 10 ^ 8) (pencilA (.of p.f_S) (.of p.f_X))
          (pencilB (.of p.g_s) (.of p.g_x) (.of p.f_s) (.of p.f_x))))
    {Y_s : ℝ → Fin nx → Fin ns → ℝ} {Y_ss : ℝ → Fin nx → Fin ns → Fin ns → ℝ} {Y_tt : ℝ → Fin nx → ℝ}
    (hrun : ∀ lam : ℝ, statePerturb solve lsolve qz cut (p.withRisk fun i j => lam ^ 2 * p.sigma i j) 2
      = .ok (.second (Y_s lam) (Y_ss lam) (Y_tt lam), false))
    {dr : ℝ → TaylorExp ns nx ℝ} {AB : ℝ → Option ((Fin ns → Fin ns → ℝ) × (Fin ns → Fin ne → ℝ))}
    (hdr : ∀ lam : ℝ, pertRule (p.withRisk fun i j => lam ^ 2 * p.sigma i j) sb xb (.second (Y_s lam) (Y_ss lam) (Y_tt lam))
      = .ok (some (dr lam, AB lam)))
    {nm : ℕ} {ψ : (Fin ns → ℝ) → ℝ → Fin nx → ℝ} (hψ : ∀ lam s, ((dr lam).ops nm).call1 (.vec s) = .ok (.vec (ψ s lam)))
    {φ : (Fin ns → ℝ) → ℝ → Fin nx → ℝ} (h0 : φ sb 0 = xb) {Z_ss : Fin nx → Fin ns → Fin ns → ℝ} {Z_tt : Fin nx → ℝ}
    (hφ : Expands2 (fun y : Fin ns ⊕ Unit → ℝ => φ (y ∘ .inl) (y (.inr ()))) (Sum.elim sb 0) (ruleD1 (Y_s 1)) (ruleD2 Z_ss Z_tt))
    {D : Type} [Fintype D] (w : D → ℝ) (ε : D → Fin ne → ℝ) (hε : Shocks w ε p.sigma)
    (hres : ∀ i, (fun y : (Fin ns → ℝ) × ℝ => equationError g f w ε φ y.1 y.2 i)
      =o[𝓝 (sb, 0)] fun y => ‖y.1 - sb‖ ^ 2 + y.2 ^ 2)
    (es : List (Fin ne → ℝ)) (T t : ℕ) (η : ℝ) (hη : 0 < η) :
    ∀ᶠ y : (Fin ns → ℝ) × ℝ in 𝓝 (sb, 0), ∀ sim sim' q q',
      simulateDriven (fun (_ : Fin ne → ℝ) s x e => g s x e) (fun _ s => ψ s y.2) y.1 T (es.map fun e => y.2 • e) = .ok sim →
      simulateDriven (fun (_ : Fin ne → ℝ) s x e => g s x e) (fun _ s => φ s y.2) y.1 T (es.map fun e => y.2 • e) = .ok sim' →
      sim[t]? = some q → sim'[t]? = some q' →
      ‖q.1 - q'.1‖ ≤ η * (‖y.1 - sb‖ ^ 2 + y.2 ^ 2) ∧ ‖q.2 - q'.2‖ ≤ η * (‖y.1 - sb‖ ^ 2 + y.2 ^ 2) := by
  obtain ⟨h, hval⟩ := perturb_values hsolve hlsolve cut hq hd hbk hrun hdr hψ
  rw [hval]
  exact C163_simulations hp h h0 hφ w ε hε hres es T t η hη

end main

/-- The hypotheses hold for the asset with dividends shocked by `± 1`. -/
example : ∃ (D : Type) (_ : Fintype D) (w : D → ℝ) (ε : D → Fin 1 → ℝ) (X_ss : Fin 1 → Fin 1 → Fin 1 → ℝ) (X_tt : Fin 1 → ℝ),
    Shocks w ε asset2.sigma ∧ StatePerturbReturns asset2 (fun _ _ => 4 / 3) X_ss X_tt ∧
      ProblemAt asset2 (fun s _ e => (1 / 2 : ℝ) • s + e) (fun s x _ X => (-2 : ℝ) • s + (2 : ℝ) • x - X + s * s) 0 0 := by
  obtain ⟨h1, ⟨X_ss, X_tt, h2⟩, -⟩ := asset2_case
  refine ⟨Bool, inferInstance, fun _ => 1 / 2, fun b _ => if b then 1 else -1, X_ss, X_tt, ⟨?_, fun _ => ?_, fun _ _ => ?_⟩, h2, h1⟩
  · norm_num
  · simp
  · simp [asset2]
    norm_num

/-- The hypotheses of `C163_first_order` hold for it too. -/
example (lsolve : LinSolver ℝ) : ∃ qz, DecomposesPencil qz asset2 ∧
    statePerturb solverR lsolve qz (fun _ _ => 0) asset2 1 = .ok (.first (fun _ _ => 4 / 3), false) := by
  refine ⟨fun _ _ _ => dS, fun _ => ⟨asset2_pencil, ?_, ?_⟩, ?_⟩
  · ext i j
    rw [Subsingleton.elim i 0, Subsingleton.elim j 0]
    simp [dS, Matrix.toBlocks₂₁]
  · ext i j
    rw [Subsingleton.elim i 0, Subsingleton.elim j 0]
    simp [dS, Matrix.toBlocks₂₁]
  · unfold statePerturb
    rw [if_neg (by norm_num)]
    beta_reduce
    change ((selectRule2 solverR dS (fun _ => dS) (fun _ _ => 0)).bind fun z =>
      (higherOrders solverR lsolve asset2 1 z.1).bind fun r => .ok (r, z.2)) = _
    rw [asset2_select]
    rfl

/-- A rule that meets the hypotheses of `C163_unique` and `C163_simulations` and is not the second-order rule.  (It meets those
of `C163_certainty_equivalence` too, with `y = 0`: `ruleD1 X_s i` is `Sum.elim (X_s i) 0`.) -/
example : ∃ (D : Type) (_ : Fintype D) (w : D → ℝ) (ε : D → Fin 1 → ℝ) (X_ss : Fin 1 → Fin 1 → Fin 1 → ℝ) (X_tt : Fin 1 → ℝ)
    (φ : (Fin 1 → ℝ) → ℝ → Fin 1 → ℝ),
    Shocks w ε asset2.sigma ∧ StatePerturbReturns asset2 (fun _ _ => 4 / 3) X_ss X_tt ∧ φ 0 0 = 0 ∧
      φ ≠ secondRule 0 0 (fun _ _ => 4 / 3) X_ss X_tt ∧
      Expands2 (fun y : Fin 1 ⊕ Unit → ℝ => φ (y ∘ .inl) (y (.inr ()))) (Sum.elim 0 0) (ruleD1 fun _ _ => 4 / 3) (ruleD2 X_ss X_tt) ∧
      ∀ i, (fun y : (Fin 1 → ℝ) × ℝ => equationError (fun s _ e => (1 / 2 : ℝ) • s + e)
        (fun s x _ X => (-2 : ℝ) • s + (2 : ℝ) • x - X + s * s) w ε φ y.1 y.2 i) =o[𝓝 (0, 0)] fun y => ‖y.1 - 0‖ ^ 2 + y.2 ^ 2 := by
  obtain ⟨h1, ⟨X_ss, X_tt, h2⟩, -⟩ := asset2_case
  have hε : Shocks (fun _ : Bool => (1 / 2 : ℝ)) (fun b (_ : Fin 1) => if b then (1 : ℝ) else -1) asset2.sigma := by
    refine ⟨?_, fun _ => ?_, fun _ _ => ?_⟩
    · norm_num
    · simp
    · simp [asset2]
      norm_num
  set φ : (Fin 1 → ℝ) → ℝ → Fin 1 → ℝ := fun s lam i => secondRule 0 0 (fun _ _ => 4 / 3) X_ss X_tt s lam i + s 0 ^ 3 with hφ
  have h0 : φ 0 0 = 0 := by funext i; simp [hφ, secondRule]
  have hE : Expands2 (fun y : Fin 1 ⊕ Unit → ℝ => φ (y ∘ .inl) (y (.inr ()))) (Sum.elim 0 0) (ruleD1 fun _ _ => 4 / 3)
      (ruleD2 X_ss X_tt) := by
    intro i
    have hc : (fun v : Fin 1 ⊕ Unit → ℝ => v (.inl 0) ^ 3) =o[𝓝 0] fun v => ‖v‖ ^ 2 := by
      have hl : (fun v : Fin 1 ⊕ Unit → ℝ => v (.inl 0)) =O[𝓝 0] fun v => ‖v‖ :=
        IsBigO.of_bound 1 (Eventually.of_forall fun v => by rw [one_mul, norm_norm]; exact norm_le_pi_norm v _)
      have h3 : (fun v : Fin 1 ⊕ Unit → ℝ => ‖v‖ ^ 3) =o[𝓝 0] fun v => ‖v‖ ^ 2 := by
        have : (fun h : Fin 1 ⊕ Unit → ℝ => ‖h‖ * ‖h‖ ^ 2) =o[𝓝 0] fun h => (1 : ℝ) * ‖h‖ ^ 2 :=
          IsLittleO.mul_isBigO ((isLittleO_one_iff ℝ).2 tendsto_norm_zero) (isBigO_refl _ _)
        simpa only [one_mul, ← pow_succ'] using this
      exact (hl.pow 3).trans_isLittleO h3
    refine ((second_expands (0 : Fin 1 → ℝ) (0 : Fin 1 → ℝ) (fun _ _ => 4 / 3) X_ss X_tt i).add hc).congr_left fun v => ?_
    simp only [hφ, Function.comp_apply, Pi.add_apply, Sum.elim_inl, Pi.zero_apply, zero_add, ne_eq, OfNat.ofNat_ne_zero,
      not_false_eq_true, zero_pow, add_zero]
    ring
  refine ⟨Bool, inferInstance, _, _, X_ss, X_tt, φ, hε, h2, h0, fun e => ?_, hE, C163_residuals h1 h2 h0 hE _ _ hε⟩
  have := congrFun (congrFun (congrFun e (fun _ => 1)) 0) 0
  simp [hφ] at this

/-- The calls that `C163_perturb` and `C163_perturb_simulations` are about, for this asset.  (The other hypotheses on the
decomposition `dS` are met, see `asset2_case`.) -/
example (nm : ℕ) : ∃ lsolve : LinSolver ℝ, lsolve.Correct ∧ ∃ (Y_ss : ℝ → Fin 1 → Fin 1 → Fin 1 → ℝ) (Y_tt : ℝ → Fin 1 → ℝ)
    (dr : ℝ → TaylorExp 1 1 ℝ) (AB : ℝ → Option ((Fin 1 → Fin 1 → ℝ) × (Fin 1 → Fin 1 → ℝ))) (ψ : (Fin 1 → ℝ) → ℝ → Fin 1 → ℝ),
    (∀ lam : ℝ, statePerturb solverR lsolve (fun _ _ _ => dS) (fun _ _ => 0)
      (asset2.withRisk fun i j => lam ^ 2 * asset2.sigma i j) 2 = .ok (.second (fun _ _ => 4 / 3) (Y_ss lam) (Y_tt lam), false)) ∧
    (∀ lam : ℝ, pertRule (asset2.withRisk fun i j => lam ^ 2 * asset2.sigma i j) 0 0
      (.second (fun _ _ => 4 / 3) (Y_ss lam) (Y_tt lam)) = .ok (some (dr lam, AB lam))) ∧
    ∀ lam s, ((dr lam).ops nm).call1 (.vec s) = .ok (.vec (ψ s lam)) := by
  let lsolve : LinSolver ℝ := fun n A b => gaussSolve n (n + 1) fun i j => if j < n then A i j else b i
  have hdet : ∀ sg, IsUnit (Matrix.of ((asset2.withRisk sg).Ltt fun _ _ => 4 / 3)).det := by
    intro sg
    rw [Matrix.det_fin_one]
    simp [Problem.withRisk, Problem.Ltt, Problem.f_x, Problem.f_S, Problem.f_X, Problem.g_x, asset2, c1]
    norm_num
  have hX : ∀ sg, ∃ t, (asset2.withRisk sg).Xtt (fun _ _ => 4 / 3) solverR ((asset2.withRisk sg).Xss (fun _ _ => 4 / 3) lsolve)
      = .ok t := by
    intro sg
    unfold Problem.Xtt solverR
    rw [if_pos (hdet sg)]
    exact ⟨_, rfl⟩
  choose X_tt hX using hX
  have hI : ∀ lam : ℝ, ∃ dr, TaylorExp.init (0 : Fin 1 → ℝ)
      (fun i => (0 : Fin 1 → ℝ) i + X_tt (fun i j => lam ^ 2 * asset2.sigma i j) i / 2) (fun _ _ => 4 / 3)
      (.two ((asset2.withRisk fun i j => lam ^ 2 * asset2.sigma i j).Xss (fun _ _ => 4 / 3) lsolve)) = .ok dr := fun lam => ⟨_, rfl⟩
  choose dr hI using hI
  refine ⟨lsolve, C26_solver_exists,
    fun lam => (asset2.withRisk fun i j => lam ^ 2 * asset2.sigma i j).Xss (fun _ _ => 4 / 3) lsolve, fun lam => X_tt fun i j => lam ^ 2 * asset2.sigma i j, dr, fun lam => some
    (fun i a => asset2.g_s i a + c1 (asset2.g_x i) fun _ => 4 / 3, asset2.g_e), _, fun lam => ?_, fun lam => ?_, fun lam s =>
    ((C56_evaluates nm _ _ _ _).1 _ (hI lam)).1 s⟩
  · have hH : higherOrders solverR lsolve (asset2.withRisk fun i j => lam ^ 2 * asset2.sigma i j) 2 (fun _ _ => 4 / 3) =
        .ok (.second (fun _ _ => 4 / 3) ((asset2.withRisk fun i j => lam ^ 2 * asset2.sigma i j).Xss (fun _ _ => 4 / 3) lsolve)
          (X_tt fun i j => lam ^ 2 * asset2.sigma i j)) := by
      unfold higherOrders
      simp only [OfNat.ofNat_ne_one, if_false, hX, if_true, Bind.bind, Except.bind, pure, Except.pure]
    unfold statePerturb
    rw [if_neg (by norm_num)]
    beta_reduce
    change ((selectRule2 solverR dS (fun _ => dS) (fun _ _ => 0)).bind fun z =>
      (higherOrders solverR lsolve (asset2.withRisk fun i j => lam ^ 2 * asset2.sigma i j) 2 z.1).bind fun r => .ok (r, z.2)) = _
    rw [asset2_select]
    change (higherOrders solverR lsolve (asset2.withRisk fun i j => lam ^ 2 * asset2.sigma i j) 2 (fun _ _ => 4 / 3)).bind _ = _
    rw [hH]
    rfl
  · have := hI lam
    unfold pertRule
    simp only [Bind.bind, Except.bind, this]
    rfl

end Dolo
