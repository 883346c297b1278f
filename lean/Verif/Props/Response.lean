import Mathlib.Analysis.Real.Sqrt
import Mathlib.Tactic.NormNum
import Mathlib.Tactic.Linarith
import Verif.Model.Response
import Verif.Props.Simulation

/-!
# C133: the default impulse of `response`; C41, C67: what it is a response to
-/

set_option linter.unusedSectionVars false

namespace Dolo

variable {K S X : Type} [Field K]

/-- The exogenous path of an impulse of size `v` to the `i`-th of `n` shocks: nothing but the impulse at date one. -/
def impulsePath (n i : ℕ) (v : K) (t : ℕ) : List K :=
  if t = 1 then (List.replicate n 0).set i v else List.replicate n 0

/-- `sim` is the path of a model whose shocks follow `m`, in the timing of `simulate` (C40): controls are the rule
at the current shocks and states, tomorrow's state is the transition from yesterday's shocks to today's. -/
def FollowsPath (g : List K → S → X → List K → S) (dr : List K → S → X) (s0 : S) (T : ℕ) (m : ℕ → List K)
    (sim : List (S × X)) : Prop :=
  sim.length = T ∧ (∀ p, sim[0]? = some p → p.1 = s0) ∧
  (∀ t p, sim[t]? = some p → p.2 = dr (m t) p.1) ∧
  (∀ t p p', sim[t]? = some p → sim[t + 1]? = some p' → p'.1 = g (m (t - 1)) p.1 p.2 (m t))

private theorem broadcast_ok (n i : ℕ) (v : K) (hi : i < n) :
    broadcastRow n ((List.replicate n 0).set i v) = .ok ((List.replicate n 0).set i v) := by
  match n, hi with
  | 1, hi =>
    obtain rfl : i = 0 := by omega
    simp [broadcastRow]
  | n + 2, hi =>
    cases i with
    | zero => simp [broadcastRow, List.replicate_succ]
    | succ i =>
      cases i with
      | zero => simp [broadcastRow, List.replicate_succ]
      | succ i => simp [broadcastRow, List.replicate_succ]

private theorem response_given (sqrt : K → K) (p : ExoObj K) (names : List String)
    (g : List K → S → X → List K → S) (dr : List K → S → X) (s0 : S) (varname : String) (T : ℕ) (v : K)
    (hp : p.resp = .iid) (hd : p.dim = some names.length) (hT : 2 ≤ T) (hn : varname ∈ names) :
    responseOf sqrt p names g dr s0 varname T (some v)
      = simulateDriven g dr s0 T ((List.range T).map (impulsePath names.length (names.idxOf varname) v)) := by
  have hi : names.idxOf varname < names.length := List.idxOf_lt_length_of_mem hn
  have h1 : T - 1 ≠ 0 := by omega
  have h2 : T - 1 + 1 = T := by omega
  simp only [responseOf, strIndex, hn, if_true, bind, Except.bind, exoRows, hp, iidRows, hd, h1, if_false,
    broadcast_ok _ _ v hi, h2]
  rfl

/-- **C133** (impulse given).  For every independent process with as many dimensions as the model has shocks, every
shock of the model, every size and every horizon of at least two dates, `response` returns the path of the model
when the named shock has that size at date one and all shocks are zero otherwise. -/
theorem C133_given (sqrt : K → K) (p : ExoObj K) (names : List String) (g : List K → S → X → List K → S)
    (dr : List K → S → X) (s0 : S) (varname : String) (T : ℕ) (v : K)
    (hp : p.resp = .iid) (hd : p.dim = some names.length) (hT : 2 ≤ T) (hn : varname ∈ names) :
    ∃ sim, responseOf sqrt p names g dr s0 varname T (some v) = .ok sim ∧
      FollowsPath g dr s0 T (impulsePath names.length (names.idxOf varname) v) sim := by
  rw [response_given sqrt p names g dr s0 varname T v hp hd hT hn]
  generalize hm : impulsePath names.length (names.idxOf varname) v = m
  obtain ⟨sim, h1, h2, h3, h4, h5⟩ := C40_simulate_exact g dr s0 ((List.range T).map m) (by simp; omega)
  simp only [List.length_map, List.length_range] at h1 h2
  have hlt : ∀ t p, sim[t]? = some p → t < T := by
    intro t p h
    obtain ⟨h, -⟩ := List.getElem?_eq_some_iff.1 h
    omega
  refine ⟨sim, h1, h2, h3, ?_, ?_⟩
  · intro t p ht
    exact h4 t (m t) p (by simp [hlt t p ht]) ht
  · intro t p p' ht ht'
    have := hlt t p ht
    exact h5 t (m (t - 1)) (m t) p p'
      (by rw [List.getElem?_map, List.getElem?_range (by omega)]; rfl) (by simp [this]) ht ht'

/-- **C133** (shock not in the model): `ValueError`. -/
theorem C133_unknown_shock (sqrt : K → K) (p : ExoObj K) (names : List String) (g : List K → S → X → List K → S)
    (dr : List K → S → X) (s0 : S) (varname : String) (T : ℕ) (v : Option K) (hn : varname ∉ names) :
    responseOf sqrt p names g dr s0 varname T v = .error .valueError := by
  simp [responseOf, strIndex, hn, bind, Except.bind]

private theorem response_none (sqrt : K → K) (p : ExoObj K) (names : List String) (g : List K → S → X → List K → S)
    (dr : List K → S → X) (s0 : S) (varname : String) (T : ℕ) (v : K) (hn : varname ∈ names)
    (h : defaultImpulse sqrt p (names.idxOf varname) = .ok v) :
    responseOf sqrt p names g dr s0 varname T none = responseOf sqrt p names g dr s0 varname T (some v) := by
  simp [responseOf, strIndex, hn, bind, Except.bind, h]

/-- **C133** (normal shocks).  For jointly normal shocks with covariance matrix `Σ`, leaving the impulse out is
giving one standard deviation of the named shock, the square root of its variance. -/
theorem C133_normal_partial (Sigma : List (List ℝ)) (mean : List ℝ) (names : List String)
    (g : List ℝ → S → X → List ℝ → S) (dr : List ℝ → S → X) (s0 : S) (varname : String) (T : ℕ)
    (hn : varname ∈ names) (row : List ℝ) (v : ℝ) (hrow : Sigma[names.idxOf varname]? = some row)
    (hv : row[names.idxOf varname]? = some v) :
    responseOf Real.sqrt (exoNormal Sigma mean) names g dr s0 varname T none
      = responseOf Real.sqrt (exoNormal Sigma mean) names g dr s0 varname T (some (Real.sqrt v)) :=
  response_none _ _ _ _ _ _ _ _ _ hn (by
    simp [defaultImpulse, sigmaEntry, exoNormal, pyGet, hrow, hv, bind, Except.bind])

/-- **C133** (one normal shock given by its standard deviation).  Leaving the impulse out is giving the square root
of the standard deviation. -/
theorem C133_unormal_default (σ μ : ℝ) (name : String) (g : List ℝ → S → X → List ℝ → S) (dr : List ℝ → S → X)
    (s0 : S) (T : ℕ) :
    responseOf Real.sqrt (exoUNormal σ μ) [name] g dr s0 name T none
      = responseOf Real.sqrt (exoUNormal σ μ) [name] g dr s0 name T (some (Real.sqrt σ)) :=
  response_none _ _ _ _ _ _ _ _ _ (by simp) (by simp [defaultImpulse, sigmaEntry, exoUNormal])

/-- **C133 fails for `UNormal`**.  For every standard deviation other than zero and one, and every horizon of at
least two dates, there is a model for which the default response is not the response to one standard deviation.
(With `rbc.yaml`, where `σ = 0.01`, the default impulse is ten standard deviations.) -/
theorem C133_unormal_fails (σ μ : ℝ) (h0 : 0 < σ) (h1 : σ ≠ 1) (T : ℕ) (hT : 2 ≤ T) (name : String) :
    ∃ (g : List ℝ → ℝ → ℝ → List ℝ → ℝ) (dr : List ℝ → ℝ → ℝ) (s0 : ℝ),
      responseOf Real.sqrt (exoUNormal σ μ) [name] g dr s0 name T none
        ≠ responseOf Real.sqrt (exoUNormal σ μ) [name] g dr s0 name T (some σ) := by
  refine ⟨fun _ s _ _ => s, fun m _ => m.getD 0 0, 0, ?_⟩
  rw [C133_unormal_default]
  obtain ⟨sim, e1, l1, -, c1, -⟩ := C133_given Real.sqrt (exoUNormal σ μ) [name] (fun _ s _ _ => s)
    (fun m _ => m.getD 0 0) (0 : ℝ) name T (Real.sqrt σ) rfl rfl hT (by simp)
  obtain ⟨sim', e2, l2, -, c2, -⟩ := C133_given Real.sqrt (exoUNormal σ μ) [name] (fun _ s _ _ => s)
    (fun m _ => m.getD 0 0) (0 : ℝ) name T σ rfl rfl hT (by simp)
  rw [e1, e2]
  intro h
  obtain rfl : sim = sim' := Except.ok.inj h
  have hs : sim[1]? = some (sim[1]'(by omega)) := List.getElem?_eq_getElem _
  have a := c1 1 _ hs
  have b := c2 1 _ hs
  rw [a] at b
  simp [impulsePath] at b
  have hsq := Real.mul_self_sqrt h0.le
  rw [b] at hsq
  exact h1 (by nlinarith [mul_self_eq_zero (a := σ), (mul_left_cancel₀ h0.ne' (hsq.trans (mul_one σ).symm))])

/-- **C133 fails for processes without `Σ` and `σ`** (uniform, beta, truncated, mixtures, finite and constant ones):
the default impulse is an `AttributeError`, although these processes have a standard deviation, and although the
same call with an impulse returns. -/
theorem C133_missing_fails (sqrt : K → K) (p : ExoObj K) (h : p = exoUnivariate ∨ ∃ d, p = exoPlain d)
    (names : List String) (g : List K → S → X → List K → S) (dr : List K → S → X) (s0 : S) (varname : String)
    (T : ℕ) (hn : varname ∈ names) :
    responseOf sqrt p names g dr s0 varname T none = .error .attributeError := by
  rcases h with rfl | ⟨d, rfl⟩ <;>
    simp [responseOf, strIndex, hn, bind, Except.bind, defaultImpulse, sigmaEntry, exoUnivariate, exoPlain]

private theorem broadcast_cases (d : ℕ) (e : List K) :
    (∃ r, broadcastRow d e = .ok r) ∨ broadcastRow d e = .error .valueError := by
  unfold broadcastRow
  split
  · exact .inl ⟨_, rfl⟩
  · split
    · exact .inl ⟨_, rfl⟩
    · exact .inr rfl

/-- **C67, C133** (which processes have responses at all).  For products, Markov chains, autoregressions and
Bernoulli variables the call raises, with or without an impulse.  In particular it raises for every model whose
exogenous section is keyed by the names of the shocks: its process is a product, even of a single one. -/
theorem C133_no_response_fails (sqrt : K → K) (p : ExoObj K)
    (h : (∃ d, p = exoProduct d) ∨ (∃ d, p = exoMarkov d) ∨ (∃ r S m, p = exoVAR1 r S m) ∨ (∃ s, p = exoAR1 s) ∨
      p = exoBernouilli)
    (names : List String) (g : List K → S → X → List K → S) (dr : List K → S → X) (s0 : S) (varname : String)
    (T : ℕ) (impulse : Option K) :
    ∃ e, responseOf sqrt p names g dr s0 varname T impulse = .error e := by
  have key : ∀ e', ∃ err, exoRows p (T - 1) e' = .error err := by
    intro e'
    rcases h with ⟨d, rfl⟩ | ⟨d, rfl⟩ | ⟨r, S', m, rfl⟩ | ⟨s, rfl⟩ | rfl
    · exact ⟨_, rfl⟩
    · exact ⟨_, rfl⟩
    · by_cases hT : T - 1 = 0
      · exact ⟨.indexError, by simp only [exoRows, exoVAR1, hT, if_true]⟩
      · rcases broadcast_cases S'.length e' with ⟨r', hr⟩ | hr
        · exact ⟨.attributeError, by simp [exoRows, exoVAR1, hT, hr, bind, Except.bind]⟩
        · exact ⟨.valueError, by simp [exoRows, exoVAR1, hT, hr, bind, Except.bind]⟩
    · by_cases hT : T - 1 = 0
      · exact ⟨.indexError, by simp only [exoRows, exoAR1, hT, if_true]⟩
      · rcases broadcast_cases 1 e' with ⟨r', hr⟩ | hr
        · by_cases h1 : T - 1 = 1
          · exact ⟨.typeError, by simp [exoRows, exoAR1, h1, hr, bind, Except.bind]⟩
          · exact ⟨.valueError, by simp [exoRows, exoAR1, hT, h1, hr, bind, Except.bind]⟩
        · exact ⟨.valueError, by simp [exoRows, exoAR1, hT, hr, bind, Except.bind]⟩
    · exact ⟨_, rfl⟩
  unfold responseOf
  cases hi : strIndex names varname with
  | error e => exact ⟨e, rfl⟩
  | ok i =>
    simp only [bind, Except.bind]
    cases impulse with
    | some v =>
      obtain ⟨err, he⟩ := key ((List.replicate names.length 0).set i v)
      exact ⟨err, by simp only [he]⟩
    | none =>
      cases hd : defaultImpulse sqrt p i with
      | error e => exact ⟨e, rfl⟩
      | ok v =>
        obtain ⟨err, he⟩ := key ((List.replicate names.length 0).set i v)
        exact ⟨err, by simp only [he]⟩

/-- **C41** (processes with a mean).  A model whose calibration is a fixed point at the mean of its normal shock: the
response to a zero impulse still leaves the steady state, as it is computed around zero shocks. -/
theorem C41_mean_fails (μ : ℝ) (hμ : μ ≠ 0) (σ : ℝ) (T : ℕ) (hT : 2 ≤ T) (name : String) :
    ∃ (g : List ℝ → ℝ → ℝ → List ℝ → ℝ) (dr : List ℝ → ℝ → ℝ) (s x : ℝ),
      g [μ] s x [μ] = s ∧ dr [μ] s = x ∧
      responseOf Real.sqrt (exoUNormal σ μ) [name] g dr s name T (some 0) ≠ .ok (List.replicate T (s, x)) := by
  refine ⟨fun _ s _ _ => s, fun m _ => m.getD 0 0, 0, μ, rfl, by simp, ?_⟩
  obtain ⟨sim, e1, l1, -, c1, -⟩ := C133_given Real.sqrt (exoUNormal σ μ) [name] (fun _ s _ _ => s)
    (fun m _ => m.getD 0 0) (0 : ℝ) name T 0 rfl rfl hT (by simp)
  rw [e1]
  intro h
  obtain rfl : sim = List.replicate T (0, μ) := Except.ok.inj h
  have := c1 0 (0, μ) (by rw [List.getElem?_replicate, if_pos (by omega)])
  simp [impulsePath] at this
  exact hμ this

/-- **C41** (the whole call).  For an independent process with as many dimensions as there are shocks and a model
whose calibration is a fixed point at zero shocks, the response to a zero impulse on any shock stays at the steady
state. -/
theorem C41_zero_impulse_call_partial (sqrt : K → K) (p : ExoObj K) (names : List String)
    (g : List K → S → X → List K → S) (dr : List K → S → X) (s : S) (x : X) (varname : String) (T : ℕ)
    (hp : p.resp = .iid) (hd : p.dim = some names.length) (hT : 2 ≤ T) (hn : varname ∈ names)
    (hg : g (List.replicate names.length 0) s x (List.replicate names.length 0) = s)
    (hdr : dr (List.replicate names.length 0) s = x) :
    responseOf sqrt p names g dr s varname T (some 0) = .ok (List.replicate T (s, x)) := by
  obtain ⟨sim, e, l, i0, c, st⟩ := C133_given sqrt p names g dr s varname T 0 hp hd hT hn
  have hm : ∀ t, impulsePath names.length (names.idxOf varname) (0 : K) t = List.replicate names.length 0 := by
    intro t
    unfold impulsePath
    split
    · apply List.ext_getElem (by simp)
      intro i h1 h2
      simp [List.getElem_set]
    · rfl
  have key : ∀ (t : ℕ) p, sim[t]? = some p → p = (s, x) := by
    intro t
    induction t with
    | zero =>
      intro p h
      have h1 := i0 p h
      have h2 := c 0 p h
      rw [hm, h1, hdr] at h2
      exact Prod.ext h1 h2
    | succ t ih =>
      intro p h
      have hlt : t < sim.length := by
        obtain ⟨h', -⟩ := List.getElem?_eq_some_iff.1 h
        omega
      have h3 := st t _ p (List.getElem?_eq_getElem hlt) h
      rw [ih _ (List.getElem?_eq_getElem hlt), hm, hm] at h3
      have h1 : p.1 = s := h3.trans hg
      have h2 := c (t + 1) p h
      rw [hm, h1, hdr] at h2
      exact Prod.ext h1 h2
  rw [e]
  congr 1
  apply List.ext_getElem (by simp [l])
  intro i h1 h2
  rw [key i _ (List.getElem?_eq_getElem h1)]
  simp

/-- Two shocks, an impulse to the second: the state follows one date after the control. -/
example : responseOf (K := ℚ) (S := ℚ) (X := ℚ) id (exoNormal [[1, 0], [0, 4]] [0, 0]) ["a", "b"]
    (fun _ s _ M => s / 2 + M.getD 1 0) (fun m s => s + m.getD 1 0) 0 "b" 4 (some 3)
    = .ok [(0, 0), (0, 3), (3, 3), (3 / 2, 3 / 2)] := by
  simp [responseOf, strIndex, exoRows, exoNormal, iidRows, broadcastRow, simulateDriven, firstRows, simLoop, bind,
    Except.bind, pure, Except.pure, List.range_succ, List.idxOf, List.findIdx_cons]

/-- The default for the second of two normal shocks with variances `1` and `4` is `2`. -/
example : responseOf Real.sqrt (exoNormal [[1, 0], [0, 4]] [0, 0]) ["a", "b"]
    (fun _ (s : ℝ) (_ : ℝ) M => s / 2 + M.getD 1 0) (fun m s => s + m.getD 1 0) 0 "b" 4 none
    = responseOf Real.sqrt (exoNormal [[1, 0], [0, 4]] [0, 0]) ["a", "b"]
    (fun _ (s : ℝ) (_ : ℝ) M => s / 2 + M.getD 1 0) (fun m s => s + m.getD 1 0) 0 "b" 4 (some (Real.sqrt 4)) :=
  C133_normal_partial _ _ _ _ _ _ _ _ (by simp) [0, 4] 4 (by simp [List.idxOf, List.findIdx_cons])
    (by simp [List.idxOf, List.findIdx_cons])

end Dolo
