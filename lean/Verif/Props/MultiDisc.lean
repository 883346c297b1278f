import Mathlib.Algebra.Order.Ring.Rat
import Mathlib.Data.Fin.VecNotation
import Mathlib.Tactic.FinCases
import Verif.Lemmas.Markov
import Verif.Props.Rouwenhorst

/-!
# C61: discretisation of a VAR(1) with scalar autoregression
-/

set_option linter.unusedSectionVars false

namespace Dolo

variable {K : Type} [Field K]

/-- Expectation of `f` of the next node under a row of the transition matrix. -/
def condE (row : List K) (nodes : List (List K)) (f : List K → K) : K :=
  (List.zipWith (fun p y => p * f y) row nodes).sum

/-! ### helper lemmas -/

private theorem itertoolsProduct_eq {α : Type} (l : List (List α)) :
    itertoolsProduct l = prodRows l := by
  induction l with
  | nil => rfl
  | cons a r ih => simp only [itertoolsProduct, prodRows_cons, ih]

private theorem prodRows_map {α β : Type} (f : α → β) (l : List (List α)) :
    prodRows (l.map fun a => a.map f) = (prodRows l).map fun t => t.map f := by
  induction l with
  | nil => rfl
  | cons a r ih =>
    simp only [List.map_cons, prodRows_cons, ih, List.flatMap_map, List.map_flatMap, List.map_map]
    rfl

private theorem foldl_kronMat (P A : List (List K)) (l : List ℕ) :
    l.foldl (fun T _ => kronMat T P) A = kronMat A (kronMatR (List.replicate l.length P)) := by
  induction l generalizing A with
  | nil => simp [kronMatR, kronMat, kronVec_one]
  | cons b r ih => simp [ih, kronMatR, kronMat_assoc, List.replicate_succ]

private theorem one_kronMat (A : List (List K)) : kronMat [[1]] A = A := by
  simp [kronMat, kronVec]

private theorem kronPower (P : List (List K)) (d : ℕ) :
    (List.range d).foldl (fun T _ => kronMat T P) [[1]]
      = (prodRows (List.replicate d P)).map kronR := by
  rw [foldl_kronMat, one_kronMat, kronMatR_eq_map, List.length_range]

/-- mass one, mean `m`, variance one -/
private structure UnitVar (a : List (K × K)) (m : K) : Prop where
  mass : wsum a (fun _ => 1) = 1
  mean : wsum a (fun x => x) = m
  var : wsum a (fun x => (x - m) * (x - m)) = 1

private theorem uv_const {a : List (K × K)} {m : K} (h : UnitVar a m) (c : K) :
    wsum a (fun _ => c) = c := by
  calc wsum a (fun _ => c) = wsum a (fun _ => c * 1) := by simp
    _ = c := by rw [wsum_const_mul, h.mass, mul_one]

private theorem uv_cent {a : List (K × K)} {m : K} (h : UnitVar a m) :
    wsum a (fun x => x - m) = 0 := by
  have : (fun x : K => x - m) = fun x => x + -m := by funext x; ring
  rw [this, wsum_add, h.mean, uv_const h]; ring

private theorem p_mass {l : List (List (K × K))} {ms : List K} (h : List.Forall₂ UnitVar l ms)
    (c : K) : wsum (wprod l) (fun _ => c) = c := by
  induction h with
  | nil => simp [wprod]
  | cons h _ ih => rw [wsum_wprod_cons]; simp only [ih]; exact uv_const h c

private theorem p_cent {l : List (List (K × K))} {ms : List K} (h : List.Forall₂ UnitVar l ms)
    (k : ℕ) : wsum (wprod l) (fun z => z.getD k 0 - ms.getD k 0) = 0 := by
  induction h generalizing k with
  | nil => simp [wprod]
  | cons h hr ih =>
    rw [wsum_wprod_cons]
    cases k with
    | zero => simp only [List.getD_cons_zero, p_mass hr]; exact uv_cent h
    | succ k => simp only [List.getD_cons_succ, ih k]; simp [wsum]

private theorem p_cov {l : List (List (K × K))} {ms : List K} (h : List.Forall₂ UnitVar l ms)
    (k j : ℕ) (hk : k < l.length) :
    wsum (wprod l) (fun z => (z.getD k 0 - ms.getD k 0) * (z.getD j 0 - ms.getD j 0))
      = if k = j then 1 else 0 := by
  induction h generalizing k j with
  | nil => simp at hk
  | cons h hr ih =>
    rw [wsum_wprod_cons]
    cases k with
    | zero =>
      cases j with
      | zero => simp only [List.getD_cons_zero, p_mass hr]; simpa using h.var
      | succ j =>
        simp only [List.getD_cons_zero, List.getD_cons_succ, wsum_const_mul, p_cent hr]
        simp [wsum]
    | succ k =>
      cases j with
      | zero =>
        simp only [List.getD_cons_zero, List.getD_cons_succ, wsum_mul_const, p_cent hr]
        simp [wsum]
      | succ j =>
        simp only [List.getD_cons_succ, ih k j (by simpa using hk)]
        by_cases hkj : k = j
        · simpa [hkj] using h.mass
        · simp [hkj, wsum]

private def img [DecidableEq K] {d : ℕ} (L sigma : Fin d → Fin d → K) (z : List K) : List K :=
  List.ofFn fun a => if zeroColumns sigma a = true then 0 else ∑ k : Fin d, L a k * z.getD k 0

private theorem multidimDisc_eq [DecidableEq K] {d : ℕ}
    (chol : (Fin d → Fin d → K) → Except Err (Fin d → Fin d → K))
    (chain : List K × List (List K)) (sigma L : Fin d → Fin d → K)
    (hL : chol (fillDiag sigma) = .ok L) :
    multidimDisc chol chain sigma = .ok
      ((prodRows (List.replicate d chain.1)).map (img L sigma),
       (prodRows (List.replicate d chain.2)).map kronR) := by
  simp only [multidimDisc, hL, bind, Except.bind, pure, Except.pure, kronPower,
    itertoolsProduct_eq, List.map_map]
  congr 2
  refine List.map_congr_left fun z _ => ?_
  simp only [Function.comp_def, img, matVec]
  apply List.ext_getElem (by simp)
  intro i h1 h2
  simp

/-! ### C61 -/

/-- What the code computes: conditional on any node `y` of the discretised process the next value has
mean `rho * y`; its conditional covariance is `L Lᵀ` (off the coordinates of zero-sum columns), where
`L` is the factor returned by `scipy.linalg.cholesky`. -/
theorem C61_multidim_moments [DecidableEq K] [CharZero K] {d : ℕ} (sqrt : K → K)
    (chol : (Fin d → Fin d → K) → Except Err (Fin d → Fin d → K))
    (rho : K) (N : ℕ) (hN : 2 ≤ N) (hr : 1 - rho ^ 2 ≠ 0)
    (hsqrt : sqrt (((N : K) - 1) / (1 - rho ^ 2)) ^ 2 = ((N : K) - 1) / (1 - rho ^ 2))
    (sigma L : Fin d → Fin d → K) (hL : chol (fillDiag sigma) = .ok L) :
    ∃ nodes T, multidimDisc chol (rouwenhorst sqrt rho 1 N) sigma = .ok (nodes, T) ∧
      nodes.length = N ^ d ∧ T.length = N ^ d ∧
      ∀ (s : ℕ) (y row : List K), nodes[s]? = some y → T[s]? = some row →
        row.length = N ^ d ∧ row.sum = 1 ∧
        (∀ a : Fin d, condE row nodes (fun y' => y'.getD a 0) = rho * y.getD a 0) ∧
        ∀ a b : Fin d,
          condE row nodes (fun y' => (y'.getD a 0 - rho * y.getD a 0)
              * (y'.getD b 0 - rho * y.getD b 0))
            = if ∑ j, sigma j a = 0 ∨ ∑ j, sigma j b = 0 then 0 else ∑ k, L a k * L b k := by
  obtain ⟨⟨X, P⟩, hXP⟩ : ∃ c, rouwenhorst sqrt rho 1 N = c := ⟨_, rfl⟩
  rw [hXP]
  have hXl : X.length = N := by
    have : (rouwenhorst sqrt rho 1 N).1.length = N := rouwenhorst_length_nodes sqrt rho 1 N (by omega)
    rwa [hXP] at this
  have hPl : P.length = N := by
    have := (rouwenhorst_shape sqrt rho 1 N (by omega)).1
    rwa [hXP] at this
  have hrow : ∀ r ∈ P, r.length = N ∧ r.sum = 1 := by
    have := (rouwenhorst_shape sqrt rho 1 N (by omega)).2
    rwa [hXP] at this
  have hcond : ∀ (i : ℕ) (r : List K) (x : K), P[i]? = some r → X[i]? = some x → UnitVar (List.zip r X) (rho * x) := by
    intro i r x h1 h2
    have hrl := hrow r (List.mem_of_getElem? h1)
    have h := C13_rouwenhorst_conditional sqrt rho 1 N hN hr hsqrt i r x
      (by rw [hXP]; exact h1) (by rw [hXP]; exact h2)
    rw [hXP] at h
    refine ⟨?_, ?_, ?_⟩
    · have : (List.zip r X).map Prod.fst = r := by
        rw [List.map_fst_zip]; omega
      have h3 := hrl.2
      rw [← this] at h3
      simpa [wsum] using h3
    · rw [← h.1]; simp [wsum, List.zip, List.map_zipWith]
    · have := h.2
      rw [one_pow] at this
      rw [← this]; simp [wsum, List.zip, List.map_zipWith, pow_two]
  refine ⟨_, _, multidimDisc_eq chol (X, P) sigma L hL, ?_, ?_, ?_⟩
  · simp [length_prodRows, hXl]
  · simp [length_prodRows, hPl]
  intro s y row hy hrow'
  -- the state as a list of pairs (node, row)
  have hX : X = (List.zip X P).map Prod.fst := by rw [List.map_fst_zip]; omega
  have hP : P = (List.zip X P).map Prod.snd := by rw [List.map_snd_zip]; omega
  have eX : prodRows (List.replicate d X)
      = (prodRows (List.replicate d (List.zip X P))).map fun t => t.map Prod.fst := by
    rw [← prodRows_map, List.map_replicate, ← hX]
  have eP : prodRows (List.replicate d P)
      = (prodRows (List.replicate d (List.zip X P))).map fun t => t.map Prod.snd := by
    rw [← prodRows_map, List.map_replicate, ← hP]
  simp only [eX, List.getElem?_map, Option.map_map] at hy
  simp only [eP, List.getElem?_map, Option.map_map] at hrow'
  obtain ⟨st, hst, rfl⟩ := Option.map_eq_some_iff.1 hy
  rw [hst] at hrow'
  simp only [Option.map_some, Option.some.injEq] at hrow'
  subst hrow'
  simp only [Function.comp_apply]
  have hmem := mem_prodRows _ _ (List.mem_of_getElem? hst)
  have hstl : st.length = d := by simpa using hmem.length_eq.symm
  -- the one-step items
  have hF : List.Forall₂ UnitVar ((st.map Prod.snd).map fun r => List.zip r X)
      ((st.map Prod.fst).map fun x => rho * x) := by
    rw [List.forall₂_map_left_iff, List.forall₂_map_left_iff, List.forall₂_map_right_iff,
      List.forall₂_map_right_iff, List.forall₂_same]
    intro t ht
    obtain ⟨k, hk, rfl⟩ := List.mem_iff_getElem.1 ht
    have h3 := (List.forall₂_iff_get.1 hmem).2 k (by simp; omega) hk
    simp only [List.get_eq_getElem, List.getElem_replicate] at h3
    obtain ⟨i, hi⟩ := List.mem_iff_getElem?.1 h3
    have hx : X[i]? = some st[k].1 := by
      rw [hX, List.getElem?_map, hi]; rfl
    have hp : P[i]? = some st[k].2 := by
      rw [hP, List.getElem?_map, hi]; rfl
    exact hcond i _ _ hp hx
  have hrl : ∀ r ∈ st.map Prod.snd, r.length = N := by
    intro r hr'
    obtain ⟨t, ht, rfl⟩ := List.mem_map.1 hr'
    obtain ⟨k, hk, rfl⟩ := List.mem_iff_getElem.1 ht
    have h3 := (List.forall₂_iff_get.1 hmem).2 k (by simp; omega) hk
    simp only [List.get_eq_getElem, List.getElem_replicate] at h3
    exact (hrow _ (List.of_mem_zip h3).2).1
  set W := wprod ((st.map Prod.snd).map fun r => List.zip r X) with hW
  have hW1 : W.map Prod.fst = kronR (st.map Prod.snd) := by
    rw [hW, map_fst_wprod, List.map_map]
    congr 1
    conv_rhs => rw [← List.map_id (st.map Prod.snd)]
    refine List.map_congr_left fun r hr' => ?_
    simp only [Function.comp_apply, id]
    rw [List.map_fst_zip]
    rw [hrl r hr', hXl]
  have hW2 : W.map Prod.snd = prodRows (List.replicate d X) := by
    rw [hW, map_snd_wprod, List.map_map]
    congr 1
    rw [List.eq_replicate_iff]
    refine ⟨by simp [hstl], ?_⟩
    intro b hb
    obtain ⟨r, hr', rfl⟩ := List.mem_map.1 hb
    simp only [Function.comp_apply]
    rw [List.map_snd_zip]
    rw [hrl r hr', hXl]
  have hE : ∀ f : List K → K, condE (kronR (st.map Prod.snd))
      ((prodRows (List.replicate d X)).map (img L sigma)) f
      = wsum W fun z => f (img L sigma z) := by
    intro f
    rw [← hW1, ← hW2, condE, List.map_map, List.zipWith_map, List.zipWith_self, wsum]
    rfl
  have hget : ∀ (a : Fin d) (z : List K), (img L sigma z).getD a 0
      = if zeroColumns sigma a = true then 0 else ∑ k : Fin d, L a k * z.getD k 0 := by
    intro a z; simp [img]
  have hms : ∀ k : ℕ, ((st.map Prod.fst).map fun x => rho * x).getD k 0
      = rho * (st.map Prod.fst).getD k 0 := by
    intro k
    by_cases hk : k < st.length
    · simp [hk]
    · simp [List.getD_eq_getElem?_getD, List.getElem?_eq_none (Nat.le_of_not_lt hk)]
  have hdiff : ∀ (a : Fin d) (z : List K),
      (img L sigma z).getD a 0 - rho * (img L sigma (st.map Prod.fst)).getD a 0
      = if zeroColumns sigma a = true then 0
        else ∑ k : Fin d, L a k * (z.getD k 0 - ((st.map Prod.fst).map fun x => rho * x).getD k 0) := by
    intro a z
    rw [hget, hget]
    split
    · ring
    · rw [Finset.mul_sum, ← Finset.sum_sub_distrib]
      refine Finset.sum_congr rfl fun k _ => ?_
      rw [hms]; ring
  refine ⟨?_, ?_, ?_, ?_⟩
  · rw [length_kronR]
    have : (st.map Prod.snd).map List.length = List.replicate d N := by
      rw [List.eq_replicate_iff]
      refine ⟨by simp [hstl], ?_⟩
      intro b hb
      obtain ⟨r, hr', rfl⟩ := List.mem_map.1 hb
      exact hrl r hr'
    rw [this]; simp
  · rw [← hW1]
    have := p_mass hF 1
    rw [← hW] at this
    simpa [wsum] using this
  · intro a
    have h0 : condE (kronR (st.map Prod.snd)) ((prodRows (List.replicate d X)).map (img L sigma))
        (fun y' => y'.getD a 0 - rho * (img L sigma (st.map Prod.fst)).getD a 0) = 0 := by
      rw [hE]
      simp only [hdiff]
      split
      · simp [wsum]
      · rw [wsum_sum]
        refine Finset.sum_eq_zero fun k _ => ?_
        rw [wsum_const_mul, hW, p_cent hF, mul_zero]
    rw [hE] at h0 ⊢
    have : (fun z => (img L sigma z).getD a 0 - rho * (img L sigma (st.map Prod.fst)).getD a 0)
        = fun z => (img L sigma z).getD a 0 + -(rho * (img L sigma (st.map Prod.fst)).getD a 0) := by
      funext z; ring
    rw [this, wsum_add, hW, p_mass hF] at h0
    linear_combination h0
  · intro a b
    rw [hE]
    simp only [hdiff]
    by_cases hza : ∑ j, sigma j a = 0
    · have hza' : zeroColumns sigma a = true := by simp [zeroColumns, hza]
      simp [hza', hza, wsum]
    · by_cases hzb : ∑ j, sigma j b = 0
      · have hzb' : zeroColumns sigma b = true := by simp [zeroColumns, hzb]
        simp [hzb', hzb, wsum]
      · have hza' : ¬ zeroColumns sigma a = true := by simp [zeroColumns, hza]
        have hzb' : ¬ zeroColumns sigma b = true := by simp [zeroColumns, hzb]
        simp only [if_neg hza', if_neg hzb']
        rw [if_neg (by tauto)]
        simp only [Finset.sum_mul_sum]
        rw [wsum_sum]
        refine Finset.sum_congr rfl fun k _ => ?_
        rw [wsum_sum, Finset.sum_eq_single k]
        · have := p_cov hF k k (by simp [hstl])
          rw [if_pos rfl, ← hW] at this
          calc wsum W _ = wsum W (fun z => (L a k * L b k) * ((z.getD k 0
                - ((st.map Prod.fst).map fun x => rho * x).getD k 0) * (z.getD k 0
                - ((st.map Prod.fst).map fun x => rho * x).getD k 0))) := by
                  apply wsum_congr; intro p _; ring
            _ = L a k * L b k := by rw [wsum_const_mul, this, mul_one]
        · intro l _ hlk
          have := p_cov hF k l (by simp [hstl])
          rw [if_neg (fun h => hlk (Fin.ext h.symm)), ← hW] at this
          calc wsum W _ = wsum W (fun z => (L a k * L b l) * ((z.getD k 0
                - ((st.map Prod.fst).map fun x => rho * x).getD k 0) * (z.getD l 0
                - ((st.map Prod.fst).map fun x => rho * x).getD l 0))) := by
                  apply wsum_congr; intro p _; ring
            _ = 0 := by rw [wsum_const_mul, this, mul_zero]
        · simp

/-- `L` is the upper Cholesky factor of `S`: upper triangular with `Lᵀ L = S` (what
`scipy.linalg.cholesky` returns by default). -/
def IsUpperFactor {d : ℕ} (S L : Fin d → Fin d → K) : Prop :=
  (∀ a b, b < a → L a b = 0) ∧ ∀ a b, ∑ k, L k a * L k b = S a b

/-- **C61 (partial).**  For a *diagonal* covariance matrix the conditional covariance is exactly
`sigma`.  For general `sigma` the claim is false: `C61_covariance_fails`. -/
theorem C61_multidim_moments_partial [DecidableEq K] [CharZero K] {d : ℕ} (sqrt : K → K)
    (chol : (Fin d → Fin d → K) → Except Err (Fin d → Fin d → K))
    (rho : K) (N : ℕ) (hN : 2 ≤ N) (hr : 1 - rho ^ 2 ≠ 0)
    (hsqrt : sqrt (((N : K) - 1) / (1 - rho ^ 2)) ^ 2 = ((N : K) - 1) / (1 - rho ^ 2))
    (sigma L : Fin d → Fin d → K) (hL : chol (fillDiag sigma) = .ok L)
    (hfac : IsUpperFactor (fillDiag sigma) L) (hdiag : ∀ a b, a ≠ b → sigma a b = 0) :
    ∃ nodes T, multidimDisc chol (rouwenhorst sqrt rho 1 N) sigma = .ok (nodes, T) ∧
      ∀ (s : ℕ) (y row : List K), nodes[s]? = some y → T[s]? = some row →
        (∀ a : Fin d, condE row nodes (fun y' => y'.getD a 0) = rho * y.getD a 0) ∧
        ∀ a b : Fin d,
          condE row nodes (fun y' => (y'.getD a 0 - rho * y.getD a 0)
              * (y'.getD b 0 - rho * y.getD b 0)) = sigma a b := by
  obtain ⟨nodes, T, h1, -, -, h4⟩ :=
    C61_multidim_moments sqrt chol rho N hN hr hsqrt sigma L hL
  refine ⟨nodes, T, h1, fun s y row hy hrow => ?_⟩
  obtain ⟨-, -, hm, hc⟩ := h4 s y row hy hrow
  refine ⟨hm, fun a b => ?_⟩
  rw [hc]
  have hcol : ∀ a, ∑ j, sigma j a = sigma a a := by
    intro a
    rw [Finset.sum_eq_single a (fun j _ hj => hdiag j a hj) (by simp)]
  have hfd : ∀ a, fillDiag sigma a a ≠ 0 := by
    intro a
    simp only [fillDiag, zeroColumns, hcol]
    by_cases h : sigma a a = 0 <;> simp [h]
  have hfo : ∀ a b, a ≠ b → fillDiag sigma a b = 0 := by
    intro a b h
    simp [fillDiag, h, hdiag a b h]
  have hLd : ∀ a b, a ≠ b → L a b = 0 := by
    intro a
    induction a using WellFoundedLT.induction with
    | ind a ih =>
      intro b hab
      rcases lt_or_gt_of_ne hab with h | h
      · have hs : ∀ c, ∑ k, L k a * L k c = L a a * L a c := by
          intro c
          refine Finset.sum_eq_single a ?_ (by simp)
          intro k _ hk
          rcases lt_or_gt_of_ne hk with h' | h'
          · rw [ih k h' a hk, zero_mul]
          · rw [hfac.1 k a h', zero_mul]
        have h1 := hfac.2 a b
        have h2 := hfac.2 a a
        rw [hs, hfo a b hab] at h1
        rw [hs] at h2
        rcases mul_eq_zero.1 h1 with h3 | h3
        · rw [h3, zero_mul] at h2
          exact absurd h2.symm (hfd a)
        · exact h3
      · exact hfac.1 a b h
  split
  · rename_i h
    rw [hcol, hcol] at h
    by_cases hab : a = b
    · subst hab
      rcases h with h | h <;> exact h.symm
    · exact (hdiag a b hab).symm
  · rename_i h
    push Not at h
    rw [Finset.sum_eq_single a (fun k _ hk => by rw [hLd a k (Ne.symm hk), zero_mul]) (by simp)]
    by_cases hab : a = b
    · subst hab
      have h2 := hfac.2 a a
      rw [Finset.sum_eq_single a (fun k _ hk => by rw [hLd k a hk, zero_mul]) (by simp)] at h2
      rw [h2]
      simp [fillDiag, zeroColumns, h.1]
    · rw [hLd b a (Ne.symm hab), mul_zero, hdiag a b hab]

/-- With correlated shocks the wrong factor is used (`L z` with the upper factor, instead of `Lᵀ z`):
for `sigma = [[1,1],[1,2]]` the first coordinate gets conditional variance `2`, not `1`. -/
theorem C61_covariance_fails :
    ∃ (chol : (Fin 2 → Fin 2 → ℚ) → Except Err (Fin 2 → Fin 2 → ℚ)) (sigma L : Fin 2 → Fin 2 → ℚ)
      (nodes T : List (List ℚ)) (y row : List ℚ),
      sigma = ![![1, 1], ![1, 2]] ∧ chol (fillDiag sigma) = .ok L ∧
      IsUpperFactor (fillDiag sigma) L ∧
      multidimDisc chol (rouwenhorst (fun _ => 1) 0 1 2) sigma = .ok (nodes, T) ∧
      nodes[0]? = some y ∧ T[0]? = some row ∧ sigma 0 0 = 1 ∧
      condE row nodes (fun y' => (y'.getD 0 0 - 0 * y.getD 0 0) * (y'.getD 0 0 - 0 * y.getD 0 0))
        = 2 := by
  let S : Fin 2 → Fin 2 → ℚ := ![![1, 1], ![1, 2]]
  let L : Fin 2 → Fin 2 → ℚ := ![![1, 1], ![0, 1]]
  have hS : fillDiag S = S := by
    funext a b
    fin_cases a <;> fin_cases b <;> norm_num [S, fillDiag, zeroColumns]
  have hfac : IsUpperFactor (fillDiag S) L := by
    rw [hS]
    refine ⟨?_, ?_⟩
    · intro a b h
      fin_cases a <;> fin_cases b <;> simp_all [L]
    · intro a b
      fin_cases a <;> fin_cases b <;> norm_num [L, S]
  obtain ⟨nodes, T, h1, hl1, hl2, h4⟩ := C61_multidim_moments (fun _ => (1 : ℚ)) (fun _ => .ok L)
    0 2 le_rfl (by norm_num) (by norm_num) S L rfl
  have hy := List.getElem?_eq_getElem (l := nodes) (i := 0) (by rw [hl1]; norm_num)
  have hT := List.getElem?_eq_getElem (l := T) (i := 0) (by rw [hl2]; norm_num)
  refine ⟨fun _ => .ok L, S, L, nodes, T, _, _, rfl, rfl, hfac, h1, hy, hT, rfl, ?_⟩
  have := (h4 0 _ _ hy hT).2.2.2 0 0
  rw [if_neg (by norm_num [S])] at this
  rw [show ((0 : Fin 2) : ℕ) = 0 from rfl] at this
  rw [this]
  norm_num [L]

/-- A diagonal covariance with its upper factor: hypotheses of the partial theorem. -/
example : IsUpperFactor (fillDiag (![![4, 0], ![0, 9]] : Fin 2 → Fin 2 → ℚ)) ![![2, 0], ![0, 3]] := by
  have hS : fillDiag (![![4, 0], ![0, 9]] : Fin 2 → Fin 2 → ℚ) = ![![4, 0], ![0, 9]] := by
    funext a b
    fin_cases a <;> fin_cases b <;> norm_num [fillDiag, zeroColumns]
  rw [hS]
  refine ⟨?_, ?_⟩
  · intro a b h
    fin_cases a <;> fin_cases b <;> simp_all
  · intro a b
    fin_cases a <;> fin_cases b <;> norm_num

end Dolo
