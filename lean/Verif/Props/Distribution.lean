import Mathlib.Tactic.FinCases
import Mathlib.Data.Rat.Cast.Order
import Verif.Lemmas.Distribution
import Verif.Props.Cartesian

/-!
# C05, C06, C07, C08, C10: discrete distributions, mixtures, equiprobable discretisation, truncation
-/

set_option linter.unusedSectionVars false

namespace Dolo

variable {K : Type} [Field K]

/-- As many weights as points (the constructor's assertion). -/
def Proper (d : FiniteDist K) : Prop := d.points.length = d.weights.length

/-- The constructor accepts exactly the proper pairs. -/
theorem proper_of_mk' {p : List (List K)} {w : List K} {d : FiniteDist K}
    (h : FiniteDist.mk' p w = .ok d) : Proper d ∧ d.points = p ∧ d.weights = w := by
  unfold FiniteDist.mk' at h
  split at h
  · cases h; exact ⟨by simp_all [Proper], rfl, rfl⟩
  · cases h

/-! ### C05 -/

private theorem wprod_eq_map {β : Type} (l : List (List (K × β))) :
    wprod l = (prodRows l).map fun sel => ((sel.map Prod.fst).prod, sel.map Prod.snd) := by
  induction l with
  | nil => rfl
  | cons a r ih =>
    simp only [wprod, prodRows_cons, List.map_flatMap, List.map_map, ih]
    rfl

/-- **C05, points.**  `product_iid` returns one point per combination: at the row-major position of
`(i_1, …, i_m)`, the point is the concatenation of the components' points `i_k` and the weight is the
product of their weights. -/
theorem C05_product_points (fs : List (FiniteDist K)) (hne : fs ≠ []) (hp : ∀ f ∈ fs, Proper f) :
    ∃ d, productIid fs = .ok d ∧ Proper d ∧
      d.points.length = (fs.map fun f => f.points.length).prod ∧
      ∀ idx, ValidIdx (fs.map fun f => f.points.length) idx →
        ∃ (xs : List (List K)) (ws : List K), xs.length = fs.length ∧ ws.length = fs.length ∧
          d.points[flatIndex (fs.map fun f => f.points.length) idx]? = some xs.flatten ∧
          d.weights[flatIndex (fs.map fun f => f.points.length) idx]? = some ws.prod ∧
          ∀ (k : ℕ) (f : FiniteDist K) (i : ℕ), fs[k]? = some f → idx[k]? = some i →
            xs[k]? = f.points[i]? ∧ ws[k]? = f.weights[i]? := by
  refine ⟨_, productIid_eq fs hne hp, by simp [Proper], ?_, ?_⟩
  · rw [List.length_map, wprod_eq_map, List.length_map, length_prodRows, List.map_map]
    congr 1
    refine List.map_congr_left fun f hf => ?_
    simp only [Function.comp_def, FiniteDist.items, List.length_zip]
    have := hp f hf
    unfold Proper at this
    omega
  · intro idx hidx
    have hsz : (fs.map FiniteDist.items).map List.length = fs.map fun f => f.points.length := by
      rw [List.map_map]
      refine List.map_congr_left fun f hf => ?_
      simp only [Function.comp_def, FiniteDist.items, List.length_zip]
      have := hp f hf
      unfold Proper at this
      omega
    obtain ⟨-, hen⟩ := prodRows_enumerates (fs.map FiniteDist.items)
    rw [hsz] at hen
    obtain ⟨sel, hsel, hlen, hk⟩ := hen idx hidx
    refine ⟨sel.map Prod.snd, sel.map Prod.fst, by simpa using hlen, by simpa using hlen, ?_, ?_, ?_⟩
    · simp only [wprod_eq_map, List.getElem?_map, hsel]; rfl
    · simp only [wprod_eq_map, List.getElem?_map, hsel]; rfl
    · intro k f i hf hi
      have h := hk k f.items i (by simp [hf]) hi
      have hpf := hp f (List.mem_of_getElem? hf)
      rw [← map_snd_items f hpf, ← map_fst_items f hpf]
      simp only [List.getElem?_map, h, and_self]

private theorem prodApply_eq {β : Type} (gs : List (β → K)) (xs : List β) :
    prodApply gs xs = (List.zipWith (fun g x => g x) gs xs).prod := by
  induction gs generalizing xs with
  | nil => simp [prodApply]
  | cons g gs ih => cases xs <;> simp [prodApply, ih]

/-- **C05, expectations.**  If `F`, evaluated at a concatenation of component points, is the product
of functions `g_k` of the separate components, the expectation of `F` under the product is the
product of the expectations of the `g_k`. -/
theorem C05_product_expectation (fs : List (FiniteDist K)) (hp : ∀ f ∈ fs, Proper f)
    (d : FiniteDist K) (hd : productIid fs = .ok d)
    (gs : List (List K → K)) (hgs : gs.length = fs.length) (F : List K → K)
    (hF : ∀ xs : List (List K), List.Forall₂ (fun f x => x ∈ f.points) fs xs →
      F xs.flatten = (List.zipWith (fun g x => g x) gs xs).prod) :
    d.integrate F = (List.zipWith (fun f g => f.integrate g) fs gs).prod := by
  have hne : fs ≠ [] := by rintro rfl; cases hd
  rw [productIid_eq fs hne hp] at hd
  cases hd
  rw [integrate_eq_wsum]
  have hitems : FiniteDist.items ⟨(wprod (fs.map FiniteDist.items)).map (fun t => t.2.flatten),
      (wprod (fs.map FiniteDist.items)).map Prod.fst⟩
      = (wprod (fs.map FiniteDist.items)).map fun t => (t.1, t.2.flatten) := by
    simp only [FiniteDist.items]
    rw [List.zip_map']
  rw [hitems, wsum_map_point]
  rw [wsum_congr _ _ (prodApply gs)]
  · rw [wsum_wprod _ _ (by simpa using hgs)]
    congr 1
    rw [List.zipWith_map_left]
    rfl
  · intro t ht
    have h2 := mem_wprod_forall₂ _ t ht
    rw [List.forall₂_map_left_iff] at h2
    rw [prodApply_eq]
    apply hF
    rw [List.forall₂_iff_get] at h2 ⊢
    refine ⟨h2.1, fun i hi hi' => ?_⟩
    have := h2.2 i hi hi'
    rwa [map_snd_items _ (hp _ (List.get_mem _ _))] at this

/-- **C05, mass.**  The total mass of the product is the product of the total masses. -/
theorem C05_product_mass (fs : List (FiniteDist K)) (hp : ∀ f ∈ fs, Proper f)
    (d : FiniteDist K) (hd : productIid fs = .ok d) :
    d.weights.sum = (fs.map fun f => f.weights.sum).prod := by
  have hne : fs ≠ [] := by rintro rfl; cases hd
  have hmass : ∀ f : FiniteDist K, Proper f → f.integrate (fun _ => 1) = f.weights.sum := by
    intro f hf
    rw [← map_fst_items f hf]
    simp [FiniteDist.integrate]
  have hpd : Proper d := by
    obtain ⟨d', hd', hp', -⟩ := C05_product_points fs hne hp
    rw [hd] at hd'; cases hd'; exact hp'
  have h := C05_product_expectation fs hp d hd (List.replicate fs.length fun _ => 1) (by simp)
    (fun _ => 1) (by
      intro xs hxs
      symm
      apply List.prod_eq_one
      intro x hx
      rw [List.mem_iff_getElem] at hx
      obtain ⟨i, hi, rfl⟩ := hx
      simp)
  rw [hmass d hpd] at h
  rw [h]
  congr 1
  apply List.ext_getElem (by simp)
  intro i h1 h2
  simp only [List.getElem_zipWith, List.getElem_replicate, List.getElem_map]
  exact hmass _ (hp _ (List.getElem_mem _))

/-- **C05, marginals.**  When all total masses are one, the expectation of a function of component `k`
alone is its expectation under component `k`. -/
theorem C05_product_marginal (fs : List (FiniteDist K)) (hp : ∀ f ∈ fs, Proper f)
    (hone : ∀ f ∈ fs, f.weights.sum = 1)
    (d : FiniteDist K) (hd : productIid fs = .ok d) (k : ℕ) (f : FiniteDist K)
    (hk : fs[k]? = some f) (g : List K → K) (F : List K → K)
    (hF : ∀ (xs : List (List K)) (x : List K),
      List.Forall₂ (fun f x => x ∈ f.points) fs xs → xs[k]? = some x → F xs.flatten = g x) :
    d.integrate F = f.integrate g := by
  obtain ⟨hk1, hk2⟩ := List.getElem?_eq_some_iff.1 hk
  have hmass : ∀ f : FiniteDist K, Proper f → f.weights.sum = 1 → f.integrate (fun _ => 1) = 1 := by
    intro f hf h1
    rw [← map_fst_items f hf] at h1
    simpa [FiniteDist.integrate] using h1
  have key : ∀ (m : ℕ) (l : List K) (j : ℕ) (hj : j < l.length) (_ : m = l.length)
      (_ : ∀ (i : ℕ) (hi : i < l.length), i ≠ j → l[i] = 1), l.prod = l[j] := by
    intro m
    induction m with
    | zero => intro l j hj hm _; omega
    | succ m ih =>
      intro l j hj hm h
      cases l with
      | nil => simp at hj
      | cons a l =>
        cases j with
        | zero =>
          have : l.prod = 1 := by
            apply List.prod_eq_one
            intro x hx
            obtain ⟨i, hi, rfl⟩ := List.mem_iff_getElem.1 hx
            exact h (i + 1) (by simpa using hi) (by omega)
          simp [this]
        | succ j =>
          have h0 := h 0 (by simp) (by omega)
          simp only [List.getElem_cons_zero] at h0
          subst h0
          rw [List.prod_cons, one_mul, ih l j (by simpa using hj) (by simpa using hm)]
          · rfl
          · intro i hi hij
            exact h (i + 1) (by simpa using hi) (by omega)
  have h := C05_product_expectation fs hp d hd
    ((List.range fs.length).map fun i => if i = k then g else fun _ => 1) (by simp) F (by
      intro xs hxs
      have hl := hxs.length_eq
      rw [hF xs (xs[k]'(by omega)) hxs (List.getElem?_eq_getElem (by omega)),
        key _ _ k (by simp; omega) rfl]
      · simp
      · intro i hi hik
        simp [hik])
  rw [h, key _ _ k (by simp; omega) rfl]
  · simp [hk2]
  · intro i hi hik
    simp only [List.length_zipWith, List.length_map, List.length_range] at hi
    simp only [List.getElem_zipWith, List.getElem_map, List.getElem_range, hik, if_false]
    exact hmass _ (hp _ (List.getElem_mem _)) (hone _ (List.getElem_mem _))

/-- Two dice-like factors, a two-point and a three-point one. -/
example : productIid [⟨[[0], [1]], [1 / 4, 3 / 4]⟩, ⟨[[10, 5], [20, 5], [30, 5]], [1 / 2, 1 / 4, 1 / 4]⟩] =
    .ok (⟨[[0, 10, 5], [0, 20, 5], [0, 30, 5], [1, 10, 5], [1, 20, 5], [1, 30, 5]],
      [1 / 8, 1 / 16, 1 / 16, 3 / 8, 3 / 16, 3 / 16]⟩ : FiniteDist ℚ) := by
  rw [productIid_eq _ (by simp) (by simp)]
  norm_num [wprod, FiniteDist.items]

/-- The hypothesis on `F` in `C05_product_marginal` is met by slicing. -/
example (f₁ f₂ : FiniteDist ℚ) (h : ∀ x ∈ f₁.points, x.length = 2) (g : List ℚ → ℚ) :
    ∀ (xs : List (List ℚ)) (x : List ℚ),
      List.Forall₂ (fun f x => x ∈ FiniteDist.points f) [f₁, f₂] xs → xs[1]? = some x →
        (fun y => g (y.drop 2)) xs.flatten = g x := by
  intro xs x h2 hx
  cases h2 with
  | cons ha h2 =>
    cases h2 with
    | cons hb h2 =>
      cases h2
      simp at hx
      subst hx
      have := h _ ha
      simp [this]

/-! ### C06 -/

/-- Expectation of `f` under the mixture, from its definition: the index takes the value of its
`i`-th point with the `i`-th weight, and `comp v` is the component attached to the value `v`. -/
def mixtureSpec (index : FiniteDist K) (comp : K → FiniteDist K) (f : List K → K) : K :=
  index.integrate fun v => match v with
    | [x] => (comp x).integrate f
    | _ => 0

private theorem mixtureLoop_ok (dists : List (String × FiniteDist K)) (comp : ℕ → FiniteDist K)
    (f : List K → K) (hp : ∀ i, Proper (comp i)) : ∀ (l : List (ℕ × K)),
    (∀ p ∈ l, dists.lookup (toString p.1) = some (comp p.1)) →
    ∃ acc, mixtureLoop dists l = .ok acc ∧
      wsum acc f = (l.map fun p => p.2 * (comp p.1).integrate f).sum ∧
      (acc.map Prod.fst).sum = (l.map fun p => p.2 * (comp p.1).weights.sum).sum ∧
      acc.length = (l.map fun p => (comp p.1).points.length).sum
  | [], _ => ⟨[], rfl, rfl, rfl, rfl⟩
  | (i, w) :: l, h => by
    obtain ⟨acc, h1, h2, h3, h4⟩ := mixtureLoop_ok dists comp f hp l fun p hp => h p (by simp [hp])
    have hi := h (i, w) (by simp)
    simp only at hi
    refine ⟨(comp i).items.map (fun wx => (w * wx.1, wx.2)) ++ acc, ?_, ?_, ?_, ?_⟩
    · simp only [mixtureLoop]
      rw [hi, h1]
      rfl
    · rw [wsum_append, wsum_map_weight, h2]
      simp [integrate_eq_wsum]
    · rw [List.map_append, List.sum_append, h3, List.map_cons, List.sum_cons]
      congr 1
      rw [List.map_map]
      have := map_fst_items (comp i) (hp i)
      simp only
      rw [← this, ← List.sum_map_mul_left]
      rfl
    · have := hp i
      unfold Proper at this
      simp [h4, FiniteDist.items, this]

/-- **C06 (partial).**  If the index distribution lists its values in the order `0, 1, …, n-1`, and
the component of value `i` is stored under the *string* key `str(i)`, then the discretised mixture
integrates every function to the mixture of the components' expectations, and the weights sum to one
when the components' and the index's do.

The full statement drops the two hypotheses on how values are listed and keyed; it is false of the
code: `C06_mixture_order_fails`, `C06_mixture_int_keys_fail`. -/
theorem C06_mixture_expectation_partial [CharZero K] (index : FiniteDist K) (hidx : Proper index)
    (hvals : ∀ i, i < index.points.length → index.points[i]? = some [(i : K)])
    (comp : K → FiniteDist K) (hp : ∀ v, Proper (comp v))
    (hne : ∃ i < index.points.length, (comp (i : K)).points ≠ [])
    (dists : List (String × FiniteDist K))
    (hd : ∀ i : ℕ, i < index.points.length → dists.lookup (toString i) = some (comp (i : K))) :
    ∃ d, mixtureDiscretize index dists = .ok d ∧ Proper d ∧
      (∀ f, d.integrate f = mixtureSpec index comp f) ∧
      ((∀ v, (comp v).weights.sum = 1) → index.weights.sum = 1 → d.weights.sum = 1) := by
  have hlen : index.weights.length = index.points.length := hidx.symm
  set l := (List.range index.weights.length).zip index.weights with hl
  have hmem : ∀ p ∈ l, dists.lookup (toString p.1) = some ((fun i : ℕ => comp (i : K)) p.1) := by
    intro p hp
    have h2 : p.1 ∈ List.range index.weights.length := (List.of_mem_zip (a := p.1) (b := p.2) hp).1
    exact hd p.1 (by rw [← hlen]; exact List.mem_range.1 h2)
  obtain ⟨acc, hacc, -, h3, h4⟩ := mixtureLoop_ok dists (fun i => comp (i : K)) (fun _ => 0)
    (fun i => hp _) l hmem
  have hpos : acc.length ≠ 0 := by
    rw [h4]
    obtain ⟨i, hi, hci⟩ := hne
    have him : (i, index.weights[i]'(by omega)) ∈ l := by
      rw [hl, List.mem_iff_getElem]
      exact ⟨i, by simp; omega, by simp⟩
    have h5 := List.single_le_sum (l := l.map fun p => (comp (p.1 : K)).points.length)
      (fun x _ => Nat.zero_le x) _ (List.mem_map_of_mem him)
    have h6 : (comp (i : K)).points.length ≠ 0 := by simpa using hci
    simp only at h5
    omega
  refine ⟨⟨acc.map Prod.snd, acc.map Prod.fst⟩, ?_, by simp [Proper], ?_, ?_⟩
  · have : mixtureLoop dists ((List.range index.weights.length).zip index.weights) = .ok acc := hacc
    simp [mixtureDiscretize, this, bind, Except.bind, FiniteDist.mk']
    intro h; simp [h] at hpos
  · intro f
    obtain ⟨acc', hacc', h2', -⟩ := mixtureLoop_ok dists (fun i => comp (i : K)) f
      (fun i => hp _) l hmem
    rw [hacc] at hacc'
    cases hacc'
    rw [integrate_eq_wsum]
    have : FiniteDist.items ⟨acc.map Prod.snd, acc.map Prod.fst⟩ = acc := zip_map_fst_snd acc
    rw [this, h2', mixtureSpec, FiniteDist.integrate, FiniteDist.items]
    congr 1
    apply List.ext_getElem
    · simp [hl, hlen]
    · intro i h1 h2
      have hi : i < index.points.length := by
        simp [hl] at h1; omega
      have hv := hvals i hi
      rw [List.getElem?_eq_getElem hi] at hv
      simp [hl, Option.some.inj hv]
  · intro hone hsum
    show (acc.map Prod.fst).sum = 1
    rw [h3]
    have : (l.map fun p => p.2 * (comp (p.1 : K)).weights.sum) = index.weights := by
      apply List.ext_getElem
      · simp [hl]
      · intro i h1 h2; simp [hl, hone]
    rw [this, hsum]

/-- A two-component mixture meeting the hypotheses. -/
example : ∃ d, mixtureDiscretize (⟨[[0], [1]], [1 / 4, 3 / 4]⟩ : FiniteDist ℚ)
    [("0", ⟨[[5]], [1]⟩), ("1", ⟨[[7], [9]], [1 / 2, 1 / 2]⟩)] = .ok d ∧
    d.points = [[5], [7], [9]] ∧ d.weights = [1 / 4, 3 / 8, 3 / 8] := by
  refine ⟨_, rfl, rfl, ?_⟩
  norm_num [FiniteDist.items]

/-- The component is chosen by the *position* of the index point, not by its value: with the index
points listed as `1, 0`, weights end up on the wrong components. -/
theorem C06_mixture_order_fails :
    ∃ (index : FiniteDist ℚ) (comp : ℚ → FiniteDist ℚ) (dists : List (String × FiniteDist ℚ))
      (d : FiniteDist ℚ),
      Proper index ∧ (∀ v, Proper (comp v)) ∧ index.points = [[1], [0]] ∧
      dists = [("0", comp 0), ("1", comp 1)] ∧
      mixtureDiscretize index dists = .ok d ∧
      ∃ f, d.integrate f ≠ mixtureSpec index comp f := by
  refine ⟨⟨[[1], [0]], [1 / 4, 3 / 4]⟩, fun v => ⟨[[v]], [1]⟩,
    [("0", ⟨[[0]], [1]⟩), ("1", ⟨[[1]], [1]⟩)], _, rfl, fun _ => rfl, rfl, rfl, rfl,
    fun x => x.headD 0, ?_⟩
  norm_num [mixtureSpec, FiniteDist.integrate, FiniteDist.items]

/-- With integer keys the lookup of `str(i)` raises `KeyError`. -/
theorem C06_mixture_int_keys_fail {β : Type} (dists : List (MixKey × β))
    (h : ∀ p ∈ dists, ∃ n, p.1 = .int n) (i : ℕ) : mixLookup dists i = .error .keyError := by
  have : dists.lookup (.str (toString i)) = none := by
    induction dists with
    | nil => rfl
    | cons p l ih =>
      obtain ⟨n, hn⟩ := h p (by simp)
      obtain ⟨k, b⟩ := p
      simp only at hn
      subst hn
      have hne : (MixKey.str (toString i) == MixKey.int n) = false := by
        rw [beq_eq_false_iff_ne]; exact fun h => by cases h
      rw [List.lookup_cons, hne]
      exact ih fun q hq => h q (by simp [hq])
  unfold mixLookup
  rw [this]

/-! ### C10 -/

/-- **C10.**  The chain obtained from a finite distribution has the distribution's support as nodes,
and from every state the next-period expectation of every function is the distribution's. -/
theorem C10_finite_to_mc (d : FiniteDist K) :
    d.toMC.values = d.points ∧ d.toMC.transitions.length = d.points.length ∧
    (∀ row ∈ d.toMC.transitions, row = d.weights) ∧
    ∀ i, i < d.points.length → ∀ f, d.toMC.expect i f = .ok (d.integrate f) := by
  refine ⟨rfl, by simp [FiniteDist.toMC], by simp [FiniteDist.toMC], ?_⟩
  intro i hi f
  simp [MChain.expect, FiniteDist.toMC, pyGet, hi, bind, Except.bind, pure,
    Except.pure, FiniteDist.integrate, FiniteDist.items]

/-- A state outside the support raises `IndexError`. -/
theorem C10_finite_to_mc_out_of_range (d : FiniteDist K) (i : ℕ) (hi : d.points.length ≤ i)
    (f : List K → K) : d.toMC.expect i f = .error .indexError := by
  have : ¬ i < d.points.length := by omega
  simp [MChain.expect, FiniteDist.toMC, pyGet, this, bind, Except.bind]

example : ((⟨[[0], [1]], [1 / 4, 3 / 4]⟩ : FiniteDist ℚ).toMC).transitions
    = [[1 / 4, 3 / 4], [1 / 4, 3 / 4]] := rfl

/-! ### C07 -/

section Equiprobable

variable [LinearOrder K] [IsStrictOrderedRing K]

/-- The point representing cell `i` of `N` cells of equal mass: its median, left end, right end, or
the middle of its two ends. -/
def cellPoint (ppf : K → K) (N : ℕ) : MassPoint → ℕ → K
  | .median, i => ppf ((2 * (i : K) + 1) / (2 * (N : K)))
  | .left, i => ppf ((i : K) / (N : K))
  | .middle, i => (ppf ((i : K) / (N : K)) + ppf (((i : K) + 1) / (N : K))) / 2
  | .right, i => ppf (((i : K) + 1) / (N : K))
  | .other, _ => 0

private theorem linspace_eq (a b : K) (N : ℕ) (hN : N ≠ 0) (g : ℕ → K)
    (h : ∀ i : ℕ, i < N → a + (i : K) * ((b - a) / ((N : K) - 1)) = g i ∨ (N = 1 ∧ a = g i)) :
    linspace a b N = (List.range N).map g := by
  unfold linspace
  refine List.map_congr_left fun i hi => ?_
  have hi' := List.mem_range.1 hi
  by_cases h1 : N ≤ 1
  · have hN1 : N = 1 := by omega
    subst hN1
    have : i = 0 := by omega
    subst this
    rw [if_pos h1]
    rcases h 0 (by omega) with h | h
    · simpa using h
    · exact h.2
  · rw [if_neg h1]
    rcases h i hi' with h | h
    · exact h
    · omega

private theorem midpoints_map_range (g : ℕ → K) (n : ℕ) :
    midpoints ((List.range (n + 1)).map g)
      = (List.range n).map fun i => (1 / 2) * (g (i + 1) + g i) := by
  induction n generalizing g with
  | zero => rfl
  | succ n ih =>
    rw [List.range_succ_eq_map, List.map_cons, List.range_succ_eq_map (n := n), List.map_cons,
      List.map_cons, List.map_cons]
    have h := ih (fun i => g (i + 1))
    rw [List.range_succ_eq_map, List.map_cons] at h
    simp only [List.map_map, Function.comp_def, Nat.succ_eq_add_one] at h ⊢
    simp only [midpoints]
    rw [show (0 + 1 : ℕ) = 1 from rfl] at h ⊢
    rw [h]

/-- **C07, the points.**  Equiprobable discretisation with `N ≥ 1` points returns, in order, the
representative of each of the `N` cells of mass `1/N`, with weights `1/N` that sum to one. -/
theorem C07_equiprobable_points (ppf : K → K) (N : ℕ) (hN : 1 ≤ N) (mp : MassPoint)
    (hmp : mp ≠ .other) :
    ∃ d, discretizeEp ppf N mp = .ok d ∧
      d.points = (List.range N).map (fun i => [cellPoint ppf N mp i]) ∧
      d.weights = List.replicate N (1 / (N : K)) ∧ d.weights.sum = 1 := by
  have hN0 : N ≠ 0 := by omega
  have hNK : (N : K) ≠ 0 := by exact_mod_cast hN0
  have hsum : (List.replicate N (1 / (N : K))).sum = 1 := by
    simp [hNK]
  have key : ∀ q : List K, q = (List.range N).map (cellPoint ppf N mp) →
      (equiprobable (q.map fun x => [x])).points
        = (List.range N).map (fun i => [cellPoint ppf N mp i]) ∧
      (equiprobable (q.map fun x => [x])).weights = List.replicate N (1 / (N : K)) ∧
      (equiprobable (q.map fun x => [x])).weights.sum = 1 := by
    rintro q rfl
    refine ⟨by simp [equiprobable, Function.comp_def], by simp [equiprobable, equiWeights], ?_⟩
    simpa [equiprobable, equiWeights] using hsum
  have hden : ∀ i : ℕ, i < N → N ≠ 1 → ((N : K) - 1) ≠ 0 := by
    intro i _ h1 h
    apply h1
    have : (N : K) = 1 := sub_eq_zero.1 h
    exact_mod_cast this
  cases mp with
  | other => exact absurd rfl hmp
  | median =>
    refine ⟨_, by simp only [discretizeEp, hN0, if_false]; rfl, key _ ?_⟩
    rw [linspace_eq _ _ N hN0 (fun i => (2 * (i : K) + 1) / (2 * (N : K))), List.map_map]
    · rfl
    · intro i hi
      by_cases h1 : N = 1
      · right
        refine ⟨h1, ?_⟩
        have : i = 0 := by omega
        subst this
        field_simp
        simp
      · left
        have := hden i hi h1
        field_simp
        ring
  | left =>
    refine ⟨_, by simp only [discretizeEp, hN0, if_false]; rfl, key _ ?_⟩
    rw [linspace_eq _ _ N hN0 (fun i => (i : K) / (N : K)), List.map_map]
    · rfl
    · intro i hi
      by_cases h1 : N = 1
      · right
        refine ⟨h1, ?_⟩
        have : i = 0 := by omega
        subst this
        simp
      · left
        have := hden i hi h1
        field_simp
        ring
  | right =>
    refine ⟨_, by simp only [discretizeEp, hN0, if_false]; rfl, key _ ?_⟩
    rw [linspace_eq _ _ N hN0 (fun i => ((i : K) + 1) / (N : K)), List.map_map]
    · rfl
    · intro i hi
      by_cases h1 : N = 1
      · right
        refine ⟨h1, ?_⟩
        have : i = 0 := by omega
        subst this
        simp
      · left
        have := hden i hi h1
        field_simp
        ring
  | middle =>
    refine ⟨_, by simp only [discretizeEp, hN0, if_false]; rfl, key _ ?_⟩
    rw [linspace_eq _ _ (N + 1) (by omega) (fun i => (i : K) / (N : K)), List.map_map,
      midpoints_map_range]
    · refine List.map_congr_left fun i _ => ?_
      simp only [Function.comp_def, cellPoint]
      push_cast
      ring
    · intro i hi
      left
      push_cast
      rw [add_sub_cancel_right]
      ring

/-- **C07, order and support.**  With a monotone quantile function taking values in `[lo, hi]`, the
points are increasing and lie in `[lo, hi]`. -/
theorem C07_equiprobable_sorted (ppf : K → K) (N : ℕ) (mp : MassPoint) (d : FiniteDist K)
    (hd : discretizeEp ppf N mp = .ok d) (lo hi : K)
    (hmono : ∀ p q, 0 ≤ p → p ≤ q → q ≤ 1 → ppf p ≤ ppf q)
    (hsup : ∀ p, 0 ≤ p → p ≤ 1 → lo ≤ ppf p ∧ ppf p ≤ hi) :
    ∃ q : List K, d.points = q.map (fun x => [x]) ∧ q.length = N ∧ q.Pairwise (· ≤ ·) ∧
      ∀ x ∈ q, lo ≤ x ∧ x ≤ hi := by
  have hmp : mp ≠ .other := by rintro rfl; simp [discretizeEp] at hd
  have hN : 1 ≤ N := by
    by_contra h
    have h0 : N = 0 := by omega
    subst h0
    simp [discretizeEp, hmp] at hd
  obtain ⟨d', hd', hpts, -, -⟩ := C07_equiprobable_points ppf N hN mp hmp
  rw [hd] at hd'
  cases hd'
  have hNK : (0 : K) < N := by exact_mod_cast hN
  have hiN : ∀ i : ℕ, i < N → (i : K) + 1 ≤ N := fun i hi => by exact_mod_cast hi
  have hi0 : ∀ i : ℕ, (0 : K) ≤ i := fun i => Nat.cast_nonneg i
  refine ⟨(List.range N).map (cellPoint ppf N mp), by simp [hpts, Function.comp_def], by simp,
    ?_, ?_⟩
  · rw [List.pairwise_map]
    refine List.Pairwise.imp_of_mem ?_ List.pairwise_lt_range
    intro i j hi hj hij
    have hj' := List.mem_range.1 hj
    have hijK : (i : K) ≤ j := by exact_mod_cast hij.le
    have hjN := hiN j hj'
    have h0i := hi0 i
    have e1 : ppf ((i : K) / N) ≤ ppf ((j : K) / N) :=
      hmono _ _ (by positivity) (by gcongr) (by rw [div_le_one hNK]; linarith)
    have e2 : ppf (((i : K) + 1) / N) ≤ ppf (((j : K) + 1) / N) :=
      hmono _ _ (by positivity) (by gcongr) (by rw [div_le_one hNK]; linarith)
    cases mp with
    | other => exact absurd rfl hmp
    | median =>
      exact hmono _ _ (by positivity) (by gcongr) (by rw [div_le_one (by positivity)]; linarith)
    | left => exact e1
    | right => exact e2
    | middle => simp only [cellPoint]; linarith
  · intro x hx
    obtain ⟨i, hi, rfl⟩ := List.mem_map.1 hx
    have hi' := hiN i (List.mem_range.1 hi)
    have h0i := hi0 i
    have s1 := hsup ((i : K) / N) (by positivity) (by rw [div_le_one hNK]; linarith)
    have s2 := hsup (((i : K) + 1) / N) (by positivity) (by rw [div_le_one hNK]; linarith)
    cases mp with
    | other => exact absurd rfl hmp
    | median =>
      exact hsup _ (by positivity) (by rw [div_le_one (by positivity)]; linarith)
    | left => exact s1
    | right => exact s2
    | middle => simp only [cellPoint]; constructor <;> linarith

/-- **C07, strict order.**  With a strictly increasing quantile function the points are distinct.
For the median placement only levels strictly between 0 and 1 are used, so strictness there is
enough (this is the case of the normal distribution). -/
theorem C07_equiprobable_strict (ppf : K → K) (N : ℕ) (mp : MassPoint) (d : FiniteDist K)
    (hd : discretizeEp ppf N mp = .ok d)
    (hmono : ∀ p q, 0 < p → p < q → q < 1 → ppf p < ppf q)
    (hends : mp = .median ∨ ∀ p q, 0 ≤ p → p < q → q ≤ 1 → ppf p < ppf q) :
    ∃ q : List K, d.points = q.map (fun x => [x]) ∧ q.length = N ∧ q.Pairwise (· < ·) := by
  have hmp : mp ≠ .other := by rintro rfl; simp [discretizeEp] at hd
  have hN : 1 ≤ N := by
    by_contra h
    have h0 : N = 0 := by omega
    subst h0
    simp [discretizeEp, hmp] at hd
  obtain ⟨d', hd', hpts, -, -⟩ := C07_equiprobable_points ppf N hN mp hmp
  rw [hd] at hd'
  cases hd'
  have hNK : (0 : K) < N := by exact_mod_cast hN
  refine ⟨(List.range N).map (cellPoint ppf N mp), by simp [hpts, Function.comp_def], by simp, ?_⟩
  rw [List.pairwise_map]
  refine List.Pairwise.imp_of_mem ?_ List.pairwise_lt_range
  intro i j hi hj hij
  have hj' : (j : K) + 1 ≤ N := by exact_mod_cast List.mem_range.1 hj
  have hijK : (i : K) < j := by exact_mod_cast hij
  have h0i : (0 : K) ≤ i := Nat.cast_nonneg i
  cases mp with
  | other => exact absurd rfl hmp
  | median =>
    exact hmono _ _ (by positivity) (by gcongr) (by rw [div_lt_one (by positivity)]; linarith)
  | left =>
    have hm := hends.resolve_left (by simp)
    exact hm _ _ (by positivity) (by gcongr) (by rw [div_le_one hNK]; linarith)
  | right =>
    have hm := hends.resolve_left (by simp)
    exact hm _ _ (by positivity) (by gcongr) (by rw [div_le_one hNK]; linarith)
  | middle =>
    have hm := hends.resolve_left (by simp)
    have e1 : ppf ((i : K) / N) < ppf ((j : K) / N) :=
      hm _ _ (by positivity) (by gcongr) (by rw [div_le_one hNK]; linarith)
    have e2 : ppf (((i : K) + 1) / N) < ppf (((j : K) + 1) / N) :=
      hm _ _ (by positivity) (by gcongr) (by rw [div_le_one hNK]; linarith)
    simp only [cellPoint]; linarith

/-- Uniform distribution on `[0, 2]`, four points. -/
example : ∃ d, discretizeEp (fun p : ℚ => 2 * p) 4 .median = .ok d ∧
    d.points = [[1 / 4], [3 / 4], [5 / 4], [7 / 4]] := by
  obtain ⟨d, h1, h2, -⟩ := C07_equiprobable_points (fun p : ℚ => 2 * p) 4 (by norm_num) .median
    (by simp)
  refine ⟨d, h1, ?_⟩
  rw [h2]
  norm_num [cellPoint, List.range, List.range.loop]

/-! ### C08 -/

/-- `F` is a cumulative distribution function and `ppf` its quantile function: at levels strictly
between 0 and 1, `ppf q` is the smallest `x` with `q ≤ F x`.  (Satisfied by continuous and by
discrete distributions; nothing is assumed at levels 0 and 1, where quantiles may be infinite.) -/
structure IsQuantile (F ppf : K → K) : Prop where
  range : ∀ x, 0 ≤ F x ∧ F x ≤ 1
  mono : ∀ x y, x ≤ y → F x ≤ F y
  quantile : ∀ q, 0 < q → q < 1 → ∀ x, ppf q ≤ x ↔ q ≤ F x

/-- Mass below a bound; an infinite bound has mass `dflt` (0 or 1) below it. -/
def boundLevel (F : K → K) (dflt : K) : Option K → K
  | none => dflt
  | some x => F x

/-- **C08.**  Truncate a distribution to `[lb, ub]` (either bound possibly infinite), with some mass
between the bounds.  At every level strictly between 0 and 1 the truncated quantile lies in
`(lb, ub]`; quantiles are monotone in the level; the base cdf at the quantile of level `q` is at least
the affine rescaling of `q` to `[F lb, F ub]`, and equal to it when the base cdf inverts its quantile;
levels 0 and 1 map to the bounds when the base quantile inverts the cdf there. -/
theorem C08_truncation (F ppf : K → K) (hF : IsQuantile F ppf) (lb ub : Option K) :
    ∃ t, Trunc.mk' ⟨ppf, some F⟩ lb ub = .ok t ∧
      t.minQ = boundLevel F 0 lb ∧
      t.maxQ = boundLevel F 1 ub ∧
      (t.minQ < t.maxQ →
        (∀ q, 0 < q → q < 1 →
          (∀ a, lb = some a → a < t.ppf q) ∧ (∀ b, ub = some b → t.ppf q ≤ b)) ∧
        (∀ p q, 0 < p → p ≤ q → q < 1 → t.ppf p ≤ t.ppf q) ∧
        (∀ q, 0 < q → q < 1 → t.minQ + q * (t.maxQ - t.minQ) ≤ F (t.ppf q)) ∧
        ((∀ q, 0 < q → q < 1 → F (ppf q) = q) → ∀ q, 0 < q → q < 1 →
          F (t.ppf q) = t.minQ + q * (t.maxQ - t.minQ))) ∧
      (∀ a, lb = some a → ppf (F a) = a → t.ppf 0 = a) ∧
      (∀ b, ub = some b → ppf (F b) = b → t.ppf 1 = b) := by
  have main : ∀ lo hi : K, lo = boundLevel F 0 lb →
      hi = boundLevel F 1 ub → 
      (lo < hi →
        (∀ q, 0 < q → q < 1 →
          (∀ a, lb = some a → a < Trunc.ppf ⟨⟨ppf, some F⟩, lo, hi⟩ q) ∧
          (∀ b, ub = some b → Trunc.ppf ⟨⟨ppf, some F⟩, lo, hi⟩ q ≤ b)) ∧
        (∀ p q, 0 < p → p ≤ q → q < 1 →
          Trunc.ppf ⟨⟨ppf, some F⟩, lo, hi⟩ p ≤ Trunc.ppf ⟨⟨ppf, some F⟩, lo, hi⟩ q) ∧
        (∀ q, 0 < q → q < 1 → lo + q * (hi - lo) ≤ F (Trunc.ppf ⟨⟨ppf, some F⟩, lo, hi⟩ q)) ∧
        ((∀ q, 0 < q → q < 1 → F (ppf q) = q) → ∀ q, 0 < q → q < 1 →
          F (Trunc.ppf ⟨⟨ppf, some F⟩, lo, hi⟩ q) = lo + q * (hi - lo))) ∧
      (∀ a, lb = some a → ppf (F a) = a → Trunc.ppf ⟨⟨ppf, some F⟩, lo, hi⟩ 0 = a) ∧
      (∀ b, ub = some b → ppf (F b) = b → Trunc.ppf ⟨⟨ppf, some F⟩, lo, hi⟩ 1 = b) := by
    intro lo hi hlo hhi
    have h0 : 0 ≤ lo := by
      cases lb with
      | none => simp only [boundLevel] at hlo; exact hlo.ge
      | some a => simp only [boundLevel] at hlo; rw [hlo]; exact (hF.range a).1
    have h1 : hi ≤ 1 := by
      cases ub with
      | none => simp only [boundLevel] at hhi; exact hhi.le
      | some b => simp only [boundLevel] at hhi; rw [hhi]; exact (hF.range b).2
    refine ⟨fun hlt => ?_, ?_, ?_⟩
    · have hlev : ∀ q, 0 < q → q < 1 → lo < lo + (hi - lo) * q ∧ lo + (hi - lo) * q < hi := by
        intro q hq0 hq1
        have h2 : 0 < hi - lo := by linarith
        have h3 := mul_pos h2 hq0
        have h4 := mul_lt_mul_of_pos_left hq1 h2
        constructor <;> linarith
      refine ⟨?_, ?_, ?_, ?_⟩
      · intro q hq0 hq1
        obtain ⟨h2, h3⟩ := hlev q hq0 hq1
        have h4 := hF.quantile (lo + (hi - lo) * q) (by linarith) (by linarith)
        constructor
        · intro a ha
          subst ha
          simp only [boundLevel] at hlo
          by_contra hc
          have := (h4 a).1 (not_lt.1 hc)
          linarith
        · intro b hb
          subst hb
          simp only [boundLevel] at hhi
          exact (h4 b).2 (by linarith)
      · intro p q hp hpq hq
        obtain ⟨h2, h3⟩ := hlev q (by linarith) hq
        obtain ⟨h2', h3'⟩ := hlev p hp (by linarith)
        have h4 := hF.quantile (lo + (hi - lo) * q) (by linarith) (by linarith)
        have h5 := hF.quantile (lo + (hi - lo) * p) (by linarith) (by linarith)
        have h6 := (h4 _).1 le_rfl
        refine (h5 _).2 (le_trans ?_ h6)
        have := mul_le_mul_of_nonneg_left hpq (sub_nonneg.2 hlt.le)
        linarith
      · intro q hq0 hq1
        obtain ⟨h2, h3⟩ := hlev q hq0 hq1
        have h4 := hF.quantile (lo + (hi - lo) * q) (by linarith) (by linarith)
        have h6 := (h4 _).1 le_rfl
        have h7 : lo + q * (hi - lo) = lo + (hi - lo) * q := by ring
        rw [h7]; exact h6
      · intro hinv q hq0 hq1
        obtain ⟨h2, h3⟩ := hlev q hq0 hq1
        have h7 : lo + q * (hi - lo) = lo + (hi - lo) * q := by ring
        rw [h7]
        exact hinv _ (by linarith) (by linarith)
    · intro a ha hinv
      subst ha
      simp only [boundLevel] at hlo
      simp [Trunc.ppf, hlo, hinv]
    · intro b hb hinv
      subst hb
      simp only [boundLevel] at hhi
      simp [Trunc.ppf, hhi, hinv]
  refine ⟨⟨⟨ppf, some F⟩, boundLevel F 0 lb, boundLevel F 1 ub⟩, ?_, rfl, rfl, main _ _ rfl rfl⟩
  cases lb <;> cases ub <;> rfl

/-- The uniform distribution on `[0,1]` meets the contract, and its truncation to `[1/4, 3/4]` has
median `1/2`. -/
example : IsQuantile (fun x : ℚ => max 0 (min 1 x)) (fun q => q) ∧
    ∃ t, Trunc.mk' (⟨fun q => q, some fun x : ℚ => max 0 (min 1 x)⟩) (some (1 / 4)) (some (3 / 4))
      = .ok t ∧ t.minQ < t.maxQ ∧ t.ppf (1 / 2) = 1 / 2 := by
  refine ⟨⟨fun x => ⟨le_max_left _ _, max_le zero_le_one (min_le_left _ _)⟩, fun x y h => ?_,
    fun q h0 h1 x => ?_⟩, _, rfl, ?_, ?_⟩
  · exact max_le_max_left _ (min_le_min_left _ h)
  · constructor
    · intro h; exact le_max_of_le_right (le_min h1.le h)
    · intro h
      rcases le_max_iff.1 h with h | h
      · linarith
      · exact (le_min_iff.1 h).2
  · norm_num
  · norm_num [Trunc.ppf]

/-- Without a `cdf` (log-normal, beta, or a distribution that is already truncated) a finite bound
makes the constructor raise. -/
theorem C08_truncation_needs_cdf (dist : UniDist K) (h : dist.cdf = none) (lb ub : Option K)
    (hb : lb ≠ none ∨ ub ≠ none) :
    ∃ m, Trunc.mk' dist lb ub = .error (.exception m) := by
  refine ⟨"Not Implemented (yet).", ?_⟩
  cases lb <;> cases ub <;> simp_all [Trunc.mk', bind, Except.bind]

/-- A truncation cannot be truncated again. -/
theorem C08_truncation_twice (t : Trunc K) (lb ub : Option K) (hb : lb ≠ none ∨ ub ≠ none) :
    ∃ m, Trunc.mk' t.asDist lb ub = .error (.exception m) :=
  C08_truncation_needs_cdf t.asDist rfl lb ub hb

end Equiprobable

end Dolo
