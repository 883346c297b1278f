import Mathlib.Algebra.Order.Ring.Rat
import Mathlib.Data.Fin.VecNotation
import Mathlib.Tactic.FinCases
import Mathlib.Tactic.LinearCombination
import Verif.Lemmas.Markov
import Verif.Props.Distribution

/-!
# C09: Gauss–Hermite discretisation of normal distributions
-/

set_option linter.unusedSectionVars false

namespace Dolo

variable {K : Type} [Field K]

/-- Mean of coordinate `a` of a finite distribution. -/
def FiniteDist.mean (d : FiniteDist K) (a : ℕ) : K := d.integrate fun x => x.getD a 0

/-- Covariance of coordinates `a`, `b` of a finite distribution (about its own mean). -/
def FiniteDist.cov (d : FiniteDist K) (a b : ℕ) : K :=
  d.integrate fun x => (x.getD a 0 - d.mean a) * (x.getD b 0 - d.mean b)

/-- A quadrature rule with the first moments of the standard normal: unit mass, zero mean, unit
variance (Gauss–Hermite rules with at least two points have them). -/
structure StdRule (r : Rule K) : Prop where
  len : r.points.length = r.weights.length
  mass : r.weights.sum = 1
  mean : (List.zipWith (fun w x => w * x) r.weights r.points).sum = 0
  var : (List.zipWith (fun w x => w * x ^ 2) r.weights r.points).sum = 1

/-! ### helper lemmas -/

def ritems (r : Rule K) : List (K × K) := List.zip r.weights r.points

theorem wsum_ritems (r : Rule K) (f : K → K) :
    wsum (ritems r) f = (List.zipWith (fun w x => w * f x) r.weights r.points).sum := by
  simp [wsum, ritems, List.zip, List.map_zipWith]

private theorem std_mass {r : Rule K} (h : StdRule r) : wsum (ritems r) (fun _ => 1) = 1 := by
  have : (ritems r).map Prod.fst = r.weights := by
    simp [ritems, List.map_fst_zip, h.len]
  have h1 := h.mass
  rw [← this] at h1
  simpa [wsum] using h1

private theorem std_mean {r : Rule K} (h : StdRule r) : wsum (ritems r) (fun x => x) = 0 := by
  rw [wsum_ritems]; exact h.mean

private theorem std_var {r : Rule K} (h : StdRule r) : wsum (ritems r) (fun x => x * x) = 1 := by
  rw [wsum_ritems, ← h.var]; simp [pow_two]

private theorem prod_mass (rules : List (Rule K)) (h : ∀ r ∈ rules, StdRule r) (c : K) :
    wsum (wprod (rules.map ritems)) (fun _ => c) = c := by
  induction rules with
  | nil => simp [wprod]
  | cons r rs ih =>
    rw [List.map_cons, wsum_wprod_cons]
    simp only [ih fun s hs => h s (by simp [hs])]
    have := std_mass (h r (by simp))
    calc wsum (ritems r) (fun _ => c) = wsum (ritems r) (fun _ => c * 1) := by simp
      _ = c := by rw [wsum_const_mul, this, mul_one]

private theorem prod_mean (rules : List (Rule K)) (h : ∀ r ∈ rules, StdRule r) (k : ℕ) :
    wsum (wprod (rules.map ritems)) (fun z => z.getD k 0) = 0 := by
  induction rules generalizing k with
  | nil => simp [wprod]
  | cons r rs ih =>
    have hrs : ∀ s ∈ rs, StdRule s := fun s hs => h s (by simp [hs])
    rw [List.map_cons, wsum_wprod_cons]
    cases k with
    | zero =>
      simp only [List.getD_cons_zero]
      simp only [prod_mass rs hrs]
      exact std_mean (h r (by simp))
    | succ k =>
      simp only [List.getD_cons_succ, ih hrs k]
      simp [wsum]

private theorem prod_second (rules : List (Rule K)) (h : ∀ r ∈ rules, StdRule r) (k l : ℕ)
    (hk : k < rules.length) :
    wsum (wprod (rules.map ritems)) (fun z => z.getD k 0 * z.getD l 0) = if k = l then 1 else 0 := by
  induction rules generalizing k l with
  | nil => simp at hk
  | cons r rs ih =>
    have hrs : ∀ s ∈ rs, StdRule s := fun s hs => h s (by simp [hs])
    rw [List.map_cons, wsum_wprod_cons]
    cases k with
    | zero =>
      cases l with
      | zero =>
        simp only [List.getD_cons_zero, prod_mass rs hrs]
        simpa using std_var (h r (by simp))
      | succ l =>
        simp only [List.getD_cons_zero, List.getD_cons_succ, wsum_const_mul, prod_mean rs hrs]
        simp [wsum]
    | succ k =>
      cases l with
      | zero =>
        simp only [List.getD_cons_zero, List.getD_cons_succ, wsum_mul_const, prod_mean rs hrs]
        simp [wsum]
      | succ l =>
        simp only [List.getD_cons_succ, ih hrs k l (by simpa using hk)]
        have := std_mass (h r (by simp))
        by_cases hkl : k = l
        · simpa [hkl] using this
        · simp [hkl, wsum]

/-- the affine image computed by the code for one node `z` -/
def nodeImage [DecidableEq K] {d : ℕ} (C sigma : Fin d → Fin d → K) (mu : Fin d → K)
    (z : List K) : List K :=
  List.ofFn fun a => (if zeroColumns sigma a = true then 0 else
    (∑ k : Fin d, C a k * z.getD k 0) + mu a) + mu a

theorem normalDiscretize_eq [DecidableEq K] {d : ℕ} (sqrt : K → K)
    (chol : (Fin d → Fin d → K) → Except Err (Fin d → Fin d → K))
    (rules : List (Rule K)) (hd : 2 ≤ d) (hlen : rules.length = d)
    (hr : ∀ r ∈ rules, r.points.length = r.weights.length)
    (sigma C : Fin d → Fin d → K) (mu : Fin d → K) (hC : chol (fillDiag sigma) = .ok C) :
    normalDiscretize sqrt chol rules sigma mu
      = .ok ⟨(wprod (rules.map ritems)).map (fun t => nodeImage C sigma mu t.2),
          (wprod (rules.map ritems)).map Prod.fst⟩ := by
  match rules, hlen, hr with
  | [], h, _ => simp at h; omega
  | [_], h, _ => simp at h; omega
  | r :: s :: rest, h, hr =>
    have hcart : cartesian ((r :: s :: rest).map Rule.points)
        = .ok ((wprod ((r :: s :: rest).map ritems)).map Prod.snd) := by
      rw [List.map_cons, cartesian_cons, map_snd_wprod, ← List.map_cons, List.map_map]
      congr 2
      refine List.map_congr_left fun q hq => ?_
      simp [ritems, List.map_snd_zip, hr q hq]
    have hw : (s :: rest).foldl (fun w r => kronVec w r.weights) r.weights
        = (wprod ((r :: s :: rest).map ritems)).map Prod.fst := by
      rw [map_fst_wprod, List.map_map]
      have h3 : (r :: s :: rest).map (fun q => (ritems q).map Prod.fst)
          = (r :: s :: rest).map Rule.weights := by
        refine List.map_congr_left fun q hq => ?_
        simp [ritems, List.map_fst_zip, hr q hq]
      simp only [Function.comp_def]
      rw [h3, List.map_cons, kronR, ← foldl_kronVec, List.foldl_map]
    have hgh : gaussHermiteNodes sqrt chol (r :: s :: rest) sigma mu
        = .ok (((wprod ((r :: s :: rest).map ritems)).map Prod.snd).map (fun z =>
            List.zipWith (fun (z : Bool) v => if z then 0 else v) (List.ofFn (zeroColumns sigma))
              (List.zipWith (· + ·) (matVec C z) (List.ofFn mu))),
          (wprod ((r :: s :: rest).map ritems)).map Prod.fst) := by
      simp only [gaussHermiteNodes]
      rw [hcart, hC]
      simp only [bind, Except.bind, ne_eq, h, not_true_eq_false, if_false, pure, Except.pure, hw,
        List.map_map, Function.comp_def]
    simp only [normalDiscretize]
    rw [hgh]
    simp only [bind, Except.bind, FiniteDist.mk', List.length_map, if_true, List.map_map]
    congr 2
    refine List.map_congr_left fun t _ => ?_
    simp only [Function.comp_def, nodeImage, matVec]
    apply List.ext_getElem (by simp)
    intro i h1 h2
    simp

/-! ### C09 -/

/-- What the code computes, exactly: for `d ≥ 2` dimensions and standard one-dimensional rules,
`Normal(mu, sigma).discretize()` has unit mass; its mean is `2 mu` in every non-degenerate coordinate
(columns of `sigma` with non-zero sum) and `mu` in the others; its covariance is `C Cᵀ` (`C` being the
Cholesky factor the code computes) on non-degenerate coordinates and zero elsewhere. -/
theorem C09_normal_moments [DecidableEq K] {d : ℕ} (sqrt : K → K)
    (chol : (Fin d → Fin d → K) → Except Err (Fin d → Fin d → K))
    (rules : List (Rule K)) (hd : 2 ≤ d) (hlen : rules.length = d)
    (hr : ∀ r ∈ rules, StdRule r)
    (sigma C : Fin d → Fin d → K) (mu : Fin d → K) (hC : chol (fillDiag sigma) = .ok C)
    (hchol : ∀ a b, ∑ k, C a k * C b k = fillDiag sigma a b) :
    ∃ dist, normalDiscretize sqrt chol rules sigma mu = .ok dist ∧
      dist.weights.sum = 1 ∧
      (∀ a : Fin d, dist.mean a = if ∑ j, sigma j a = 0 then mu a else 2 * mu a) ∧
      (∀ a b : Fin d, dist.cov a b
        = if ∑ j, sigma j a = 0 ∨ ∑ j, sigma j b = 0 then 0 else sigma a b) := by
  refine ⟨_, normalDiscretize_eq sqrt chol rules hd hlen (fun r h => (hr r h).len) sigma C mu hC,
    ?_, ?_⟩
  · have := prod_mass rules hr 1
    simpa [wsum] using this
  · set W := wprod (rules.map ritems) with hW
    set dist : FiniteDist K := ⟨W.map (fun t => nodeImage C sigma mu t.2), W.map Prod.fst⟩
    have hint : ∀ f : List K → K, dist.integrate f = wsum W (fun z => f (nodeImage C sigma mu z)) := by
      intro f
      have : dist.items = W.map fun t => (t.1, nodeImage C sigma mu t.2) := by
        simp only [FiniteDist.items, dist]
        rw [List.zip_map']
      rw [integrate_eq_wsum, this, wsum_map_point]
    have hget : ∀ (a : Fin d) (z : List K), (nodeImage C sigma mu z).getD a 0
        = (if zeroColumns sigma a = true then 0 else
            (∑ k : Fin d, C a k * z.getD k 0) + mu a) + mu a := by
      intro a z
      simp [nodeImage]
    have hlin : ∀ a : Fin d, wsum W (fun z => ∑ k : Fin d, C a k * z.getD k 0) = 0 := by
      intro a
      rw [wsum_sum]
      refine Finset.sum_eq_zero fun k _ => ?_
      rw [wsum_const_mul, hW, prod_mean rules hr, mul_zero]
    have hmean : ∀ a : Fin d, dist.mean a = if ∑ j, sigma j a = 0 then mu a else 2 * mu a := by
      intro a
      unfold FiniteDist.mean
      rw [hint]
      simp only [hget]
      by_cases hz : ∑ j, sigma j a = 0
      · have hz' : zeroColumns sigma a = true := by simp [zeroColumns, hz]
        simp only [hz', hz, if_true, zero_add]
        exact prod_mass rules hr _
      · have hz' : ¬ zeroColumns sigma a = true := by simp [zeroColumns, hz]
        simp only [if_neg hz', if_neg hz]
        rw [wsum_add, wsum_add, hlin, hW, prod_mass rules hr]
        ring
    refine ⟨hmean, ?_⟩
    intro a b
    unfold FiniteDist.cov
    rw [hint]
    simp only [hget, hmean]
    by_cases hza : ∑ j, sigma j a = 0
    · have hza' : zeroColumns sigma a = true := by simp [zeroColumns, hza]
      simp [hza', hza, wsum]
    · by_cases hzb : ∑ j, sigma j b = 0
      · have hzb' : zeroColumns sigma b = true := by simp [zeroColumns, hzb]
        simp [hzb', hzb, wsum]
      · have hza' : ¬ zeroColumns sigma a = true := by simp [zeroColumns, hza]
        have hzb' : ¬ zeroColumns sigma b = true := by simp [zeroColumns, hzb]
        simp only [if_neg hza', if_neg hzb', if_neg hza, if_neg hzb]
        rw [if_neg (by tauto)]
        have hfun : (fun z : List K => ((∑ k : Fin d, C a k * z.getD k 0) + mu a + mu a - 2 * mu a)
              * ((∑ k : Fin d, C b k * z.getD k 0) + mu b + mu b - 2 * mu b))
            = fun z => ∑ k : Fin d, ∑ l : Fin d, (C a k * C b l) * (z.getD k 0 * z.getD l 0) := by
          funext z
          have e1 : (∑ k : Fin d, C a k * z.getD k 0) + mu a + mu a - 2 * mu a
              = ∑ k : Fin d, C a k * z.getD k 0 := by ring
          have e2 : (∑ k : Fin d, C b k * z.getD k 0) + mu b + mu b - 2 * mu b
              = ∑ k : Fin d, C b k * z.getD k 0 := by ring
          rw [e1, e2, Finset.sum_mul_sum]
          refine Finset.sum_congr rfl fun k _ => Finset.sum_congr rfl fun l _ => ?_
          ring
        rw [hfun, wsum_sum]
        have : ∀ k : Fin d, wsum W (fun z => ∑ l : Fin d, (C a k * C b l) * (z.getD k 0 * z.getD l 0))
            = C a k * C b k := by
          intro k
          rw [wsum_sum, Finset.sum_eq_single k]
          · rw [wsum_const_mul, hW, prod_second rules hr k k (by rw [hlen]; exact k.2)]
            simp
          · intro l _ hlk
            rw [wsum_const_mul, hW, prod_second rules hr k l (by rw [hlen]; exact k.2), if_neg]
            · simp
            · intro h; exact hlk (Fin.ext h.symm)
          · simp
        rw [Finset.sum_congr rfl fun k _ => this k, hchol]
        simp [fillDiag, hza']

/-- **C09 (partial).**  For `d ≥ 2`: mean `mu` and covariance `sigma` are reproduced when `mu = 0` and
every column of `sigma` that sums to zero is identically zero (with its row).  Both extra hypotheses
are needed: `C09_mean_fails`, `C09_zero_sum_column_fails`. -/
theorem C09_normal_moments_partial [DecidableEq K] {d : ℕ} (sqrt : K → K)
    (chol : (Fin d → Fin d → K) → Except Err (Fin d → Fin d → K))
    (rules : List (Rule K)) (hd : 2 ≤ d) (hlen : rules.length = d)
    (hr : ∀ r ∈ rules, StdRule r)
    (sigma C : Fin d → Fin d → K) (mu : Fin d → K) (hC : chol (fillDiag sigma) = .ok C)
    (hchol : ∀ a b, ∑ k, C a k * C b k = fillDiag sigma a b)
    (hmu : ∀ a, mu a = 0)
    (hdeg : ∀ a, ∑ j, sigma j a = 0 → ∀ b, sigma a b = 0 ∧ sigma b a = 0) :
    ∃ dist, normalDiscretize sqrt chol rules sigma mu = .ok dist ∧
      dist.weights.sum = 1 ∧ (∀ a : Fin d, dist.mean a = mu a) ∧
      (∀ a b : Fin d, dist.cov a b = sigma a b) := by
  obtain ⟨dist, h1, h2, h3, h4⟩ := C09_normal_moments sqrt chol rules hd hlen hr sigma C mu hC hchol
  refine ⟨dist, h1, h2, ?_, ?_⟩
  · intro a; rw [h3]; simp [hmu]
  · intro a b
    rw [h4]
    split
    · rename_i h
      rcases h with h | h
      · exact (hdeg a h b).1.symm
      · exact (hdeg b h a).2.symm
    · rfl

/-- The two-point rule `±1` with equal weights. -/
def twoPoint : Rule ℚ := ⟨[-1, 1], [1 / 2, 1 / 2]⟩

theorem twoPoint_std : StdRule twoPoint := by
  constructor <;> norm_num [twoPoint]

/-- The mean is counted twice: `Normal(mu=(1,1), sigma=I).discretize()` has mean `(2,2)`. -/
theorem C09_mean_fails :
    ∃ (chol : (Fin 2 → Fin 2 → ℚ) → Except Err (Fin 2 → Fin 2 → ℚ)) (sigma C : Fin 2 → Fin 2 → ℚ)
      (dist : FiniteDist ℚ),
      sigma = (fun a b => if a = b then 1 else 0) ∧
      chol (fillDiag sigma) = .ok C ∧ (∀ a b, ∑ k, C a k * C b k = fillDiag sigma a b) ∧
      normalDiscretize id chol [twoPoint, twoPoint] sigma (fun _ => 1) = .ok dist ∧
      dist.mean 0 = 2 ∧ dist.mean 0 ≠ 1 := by
  let I : Fin 2 → Fin 2 → ℚ := fun a b => if a = b then 1 else 0
  have hI : ∀ a b, ∑ k, I a k * I b k = fillDiag I a b := by
    intro a b
    fin_cases a <;> fin_cases b <;> simp [I, fillDiag]
  obtain ⟨dist, h1, -, h3, -⟩ := C09_normal_moments id (fun _ => .ok I) [twoPoint, twoPoint]
    le_rfl rfl (by intro r hr; simp at hr; subst hr; exact twoPoint_std) I I (fun _ => 1) rfl hI
  have h := h3 0
  have hm : dist.mean 0 = 2 := by
    simpa [I] using h
  exact ⟨fun _ => .ok I, I, I, dist, rfl, rfl, hI, h1, hm, by rw [hm]; norm_num⟩

/-- A column of the covariance matrix that merely *sums* to zero is treated as a degenerate
coordinate: for `sigma = [[1,-1],[-1,2]]` (positive definite) the discretisation has variance zero in
the first coordinate. -/
theorem C09_zero_sum_column_fails :
    ∃ (chol : (Fin 2 → Fin 2 → ℚ) → Except Err (Fin 2 → Fin 2 → ℚ)) (sigma C : Fin 2 → Fin 2 → ℚ)
      (dist : FiniteDist ℚ),
      sigma = ![![1, -1], ![-1, 2]] ∧
      chol (fillDiag sigma) = .ok C ∧ (∀ a b, ∑ k, C a k * C b k = fillDiag sigma a b) ∧
      normalDiscretize id chol [twoPoint, twoPoint] sigma (fun _ => 0) = .ok dist ∧
      sigma 0 0 = 1 ∧ dist.cov 0 0 = 0 := by
  let S : Fin 2 → Fin 2 → ℚ := ![![1, -1], ![-1, 2]]
  let C : Fin 2 → Fin 2 → ℚ := ![![1, 0], ![-1, 1]]
  have hS : fillDiag S = S := by
    funext a b
    fin_cases a <;> fin_cases b <;> norm_num [S, fillDiag, zeroColumns]
  have hC : ∀ a b, ∑ k, C a k * C b k = fillDiag S a b := by
    rw [hS]
    intro a b
    fin_cases a <;> fin_cases b <;> norm_num [C, S]
  obtain ⟨dist, h1, -, -, h4⟩ := C09_normal_moments id (fun _ => .ok C) [twoPoint, twoPoint]
    le_rfl rfl (by intro r hr; simp at hr; subst hr; exact twoPoint_std) S C (fun _ => 0) rfl hC
  refine ⟨fun _ => .ok C, S, C, dist, rfl, rfl, hC, h1, rfl, ?_⟩
  have := h4 0 0
  rw [if_pos (by left; norm_num [S])] at this
  exact this

/-- **C09 in one dimension.**  `Normal` of dimension one: mean `mu` and variance `sigma` are
reproduced for every mean. -/
theorem C09_normal_1d [DecidableEq K] (sqrt : K → K)
    (chol : (Fin 1 → Fin 1 → K) → Except Err (Fin 1 → Fin 1 → K)) (r : Rule K) (hr : StdRule r)
    (sigma : Fin 1 → Fin 1 → K) (mu : Fin 1 → K) (hs : sqrt (sigma 0 0) ^ 2 = sigma 0 0) :
    ∃ dist, normalDiscretize sqrt chol [r] sigma mu = .ok dist ∧
      dist.weights.sum = 1 ∧ dist.mean 0 = mu 0 ∧ dist.cov 0 0 = sigma 0 0 := by
  set s := sqrt (sigma 0 0) with hsdef
  set dist : FiniteDist K := ⟨r.points.map fun x => [x * s + mu 0], r.weights⟩ with hdist
  have hint : ∀ f : List K → K, dist.integrate f = wsum (ritems r) (fun x => f [x * s + mu 0]) := by
    intro f
    have : dist.items = (ritems r).map fun t => (t.1, [t.2 * s + mu 0]) := by
      simp only [FiniteDist.items, hdist, ritems, List.zip_map_right]
      rfl
    rw [integrate_eq_wsum, this]
    exact wsum_map_point (ritems r) (fun x => [x * s + mu 0]) f
  have hc : ∀ c : K, wsum (ritems r) (fun _ => c) = c := by
    intro c
    calc wsum (ritems r) (fun _ => c) = wsum (ritems r) (fun _ => c * 1) := by simp
      _ = c := by rw [wsum_const_mul, std_mass hr, mul_one]
  have hm : dist.mean 0 = mu 0 := by
    unfold FiniteDist.mean
    rw [hint]
    simp only [List.getD_cons_zero]
    rw [wsum_add, wsum_mul_const, std_mean hr, hc]
    ring
  refine ⟨dist, ?_, hr.mass, hm, ?_⟩
  · simp only [normalDiscretize, gaussHermiteNodes, dif_pos, bind, Except.bind, FiniteDist.mk',
      List.length_map, hr.len, if_true, List.map_map]
    congr 2
  · unfold FiniteDist.cov
    rw [hint, hm]
    simp only [List.getD_cons_zero, add_sub_cancel_right]
    have : (fun x : K => x * s * (x * s)) = fun x => (x * x) * s ^ 2 := by funext x; ring
    rw [this, wsum_mul_const, std_var hr, hs, one_mul]

/-- The univariate `UNormal(mu, sigma)` with the Gauss–Hermite method. -/
theorem C09_unormal [DecidableEq K] (sqrt : K → K) (r : Rule K) (hr : StdRule r) (mu sigma : K)
    (hs : sqrt (sigma ^ 2) ^ 2 = sigma ^ 2) :
    ∃ dist, unormalDiscretizeGh sqrt r mu sigma = .ok dist ∧
      dist.weights.sum = 1 ∧ dist.mean 0 = mu ∧ dist.cov 0 0 = sigma ^ 2 := by
  obtain ⟨dist, h1, h2, h3, h4⟩ := C09_normal_1d sqrt (fun _ => .error .linAlgError) r hr
    (fun _ _ => sigma ^ 2) (fun _ => mu) hs
  refine ⟨dist, ?_, h2, h3, h4⟩
  rw [← h1]
  simp only [unormalDiscretizeGh, normalDiscretize, gaussHermiteNodes, dif_pos, bind, Except.bind,
    List.map_map]
  congr 2

end Dolo
