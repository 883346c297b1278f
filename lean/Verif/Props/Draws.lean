import Mathlib.Tactic.Linarith
import Mathlib.Data.Rat.Cast.Order
import Verif.Lemmas.Draws
import Verif.Props.Distribution

/-!
# C113: draws follow the distribution
-/

set_option linter.unusedSectionVars false

namespace Dolo

open Rand

/-! ### Specification -/

section spec

variable {K : Type} [Field K]

/-- Expectation of a function of a sample of `n` independent values, given the expectation operator
of one value. -/
def sampleE {α : Type} (E : (α → K) → K) : ℕ → (List α → K) → K
  | 0, F => F []
  | n + 1, F => E fun x => sampleE E n fun xs => F (x :: xs)

/-- The method `draw` returns, for every `N`, a table of `N` independent rows with the law `E`: the
expectation of any function of the whole table is the one of a sample. -/
def IsSample (E : (List K → K) → K) (draw : ℕ → Except Err (Rand K (Draws K))) : Prop :=
  ∀ N, ∃ r, draw N = .ok r ∧ ∀ F : Draws K → K, r.expect F = sampleE E N F

end spec

/-! ### Helpers -/

section helpers

variable {K : Type} [Field K] {α : Type}

private theorem sampleE_eq (E : (α → K) → K) (n : ℕ) (F : List α → K) :
    sampleE E n F = seqE (List.replicate n E) F := by
  induction n generalizing F with
  | zero => rfl
  | succ n ih => simp only [sampleE, List.replicate_succ, seqE, ih]

private theorem sampleE_congr (E : (α → K) → K) (n : ℕ) (F G : List α → K)
    (h : ∀ xs, xs.length = n → F xs = G xs) : sampleE E n F = sampleE E n G := by
  induction n generalizing F G with
  | zero => exact h [] rfl
  | succ n ih =>
    simp only [sampleE]
    congr 1
    funext x
    exact ih _ _ fun xs hxs => h (x :: xs) (by simp [hxs])

private theorem sampleE_add (E : (α → K) → K) (n m : ℕ) (F : List α → K) :
    sampleE E (n + m) F = sampleE E n fun A => sampleE E m fun B => F (A ++ B) := by
  induction n generalizing F with
  | zero => simp [sampleE]
  | succ n ih =>
    rw [Nat.succ_add]
    simp only [sampleE, List.cons_append, ih]

private theorem takeRows_ok (points : List (List K)) (inds : List ℕ)
    (h : ∀ i ∈ inds, i < points.length) :
    takeRows points inds = .ok (inds.map fun i => points.getD i []) := by
  refine mapM_except_ok _ _ inds fun i hi => ?_
  simp [pyGet, List.getElem?_eq_getElem (h i hi), List.getD_eq_getElem?_getD]

private theorem take_sample (points : List (List K)) (r : Rand K ℕ)
    (hr : ∀ p ∈ r, p.2 < points.length) (N : ℕ) :
    ∃ t, randMapM (takeRows points) (randList r N) = .ok t ∧ ∀ F : Draws K → K,
      t.expect F = sampleE (Rand.expect (r.map fun wi => (wi.1, points.getD wi.2 []))) N F := by
  refine ⟨_, randMapM_ok (h := fun inds => inds.map fun i => points.getD i []) _ fun p hp => ?_,
    fun F => ?_⟩
  · refine takeRows_ok _ _ fun i hi => ?_
    obtain ⟨w, hw⟩ := (mem_randList r N p hp).2 i hi
    exact hr _ hw
  · rw [expect_map, sampleE_eq]
    exact randList_map r (fun i => points.getD i []) N F

private theorem zip_range_getD (w : List K) (points : List (List K))
    (h : w.length = points.length) :
    ((w.zip (List.range points.length)).map fun wi => (wi.1, points.getD wi.2 []))
      = w.zip points := by
  refine List.ext_getElem (by simp) fun i h1 h2 => ?_
  simp only [List.length_map, List.length_zip, List.length_range] at h1
  have : i < points.length := by omega
  simp [List.getD_eq_getElem?_getD, List.getElem?_eq_getElem this]

end helpers

/-! ### Finite distributions -/

section finite

variable {K : Type} [Field K] [LinearOrder K] [IsStrictOrderedRing K]

/-- **C113, finite distributions.**  When the weights are probabilities, `draw(N)` returns `N`
independent rows whose law is the one `integrate` uses. -/
theorem C113_finite (d : FiniteDist K) (hp : Proper d) (h0 : ∀ w ∈ d.weights, 0 ≤ w)
    (h1 : d.weights.sum = 1) : IsSample d.integrate d.draw := by
  intro N
  have hc : npChoice d.points.length d.weights = .ok (d.weights.zip (List.range d.points.length)) := by
    unfold npChoice
    rw [if_pos ⟨hp.symm, h0, h1⟩]
  obtain ⟨t, ht, hF⟩ := take_sample d.points (d.weights.zip (List.range d.points.length))
    (fun p hp => by simpa using (List.of_mem_zip hp).2) N
  refine ⟨t, ?_, fun F => ?_⟩
  · simp only [FiniteDist.draw, hc, bind, Except.bind]
    exact ht
  · rw [hF F, zip_range_getD _ _ hp.symm]
    rfl

/-- Otherwise every draw raises `ValueError`. -/
theorem C113_finite_rejects (d : FiniteDist K)
    (h : ¬ ((∀ w ∈ d.weights, 0 ≤ w) ∧ d.weights.sum = 1)) (N : ℕ) :
    d.draw N = .error .valueError := by
  have hc : npChoice d.points.length d.weights = .error .valueError := by
    unfold npChoice
    rw [if_neg fun hh => h hh.2]
  simp only [FiniteDist.draw, hc, bind, Except.bind]

/-- **C113, equiprobable distributions.** -/
theorem C113_equiprobable (points : List (List K)) (hne : points ≠ []) :
    IsSample (equiprobable points).integrate (equiDraw points) := by
  intro N
  have hn : points.length ≠ 0 := by simpa using hne
  have hc : npRandint points.length
      = .ok ((List.range points.length).map fun i => (1 / (points.length : K), i)) := by
    simp [npRandint, hn]
  obtain ⟨t, ht, hF⟩ := take_sample points
    ((List.range points.length).map fun i => (1 / (points.length : K), i))
    (fun p hp => by
      obtain ⟨i, hi, rfl⟩ := List.mem_map.1 hp
      simpa using hi) N
  refine ⟨t, ?_, fun F => ?_⟩
  · simp only [equiDraw, hc, bind, Except.bind]
    exact ht
  · have e : ((List.range points.length).map fun i => (1 / (points.length : K), i))
        = (equiWeights points.length : List K).zip (List.range points.length) := by
      refine List.ext_getElem (by simp [equiWeights]) fun i h1 h2 => ?_
      simp [equiWeights]
    rw [hF F, e, zip_range_getD _ _ (by simp [equiWeights])]
    rfl

/-! ### Bernouilli -/

private theorem bernouilli_sample (p : K) :
    IsSample (fun f => (1 / 2) * f [0] + (1 / 2) * f [1]) (bernouilliDraw p) := by
  intro N
  have hc : npChoiceUniform [(0 : K), 1] = .ok [((1 / 2 : K), (0 : K)), (1 / 2, 1)] := by
    simp [npChoiceUniform]
  refine ⟨(randList [((1 / 2 : K), (0 : K)), (1 / 2, 1)] N).map fun wx => (wx.1, wx.2.map fun x => [x]),
    by simp only [bernouilliDraw, hc, bind, Except.bind, pure, Except.pure], fun F => ?_⟩
  rw [expect_map, randList_map, sampleE_eq]
  congr 2
  funext f
  simp [Rand.expect]

/-- **C113, `Bernouilli` (partial).**  Draws are independent and take the values 0 and 1 with equal
probability, whatever `π`: they follow the distribution exactly when `π = 1/2`. -/
theorem C113_bernouilli_partial (p : K) :
    (∀ N, ∃ r, bernouilliDraw p N = .ok r ∧ ∀ F : Draws K → K,
      r.expect F = sampleE (fun f => (1 / 2) * f [0] + (1 / 2) * f [1]) N F) ∧
    ∃ d, bernouilliDiscretize p = .ok d ∧ (∀ f, d.integrate f = (1 - p) * f [0] + p * f [1]) ∧
      (IsSample d.integrate (bernouilliDraw p) ↔ p = 1 / 2) := by
  refine ⟨bernouilli_sample p, _, rfl, fun f => by simp [FiniteDist.integrate, FiniteDist.items], ?_, ?_⟩
  · intro h
    obtain ⟨r, hr, hF⟩ := h 1
    obtain ⟨r', hr', hF'⟩ := bernouilli_sample p 1
    rw [hr] at hr'
    cases hr'
    have := (hF fun rows => if rows = [[1]] then 1 else 0).symm.trans
      (hF' fun rows => if rows = [[1]] then 1 else 0)
    simpa [sampleE, FiniteDist.integrate, FiniteDist.items] using this
  · rintro rfl
    intro N
    obtain ⟨r, hr, hF⟩ := bernouilli_sample (1 / 2 : K) N
    refine ⟨r, hr, fun F => ?_⟩
    rw [hF F]
    congr 1
    funext f
    simp only [FiniteDist.integrate, FiniteDist.items, List.zip_cons_cons, List.zip_nil_right, List.map_cons, List.map_nil,
      List.sum_cons, List.sum_nil]
    norm_num

/-- `integrate` of a `Bernouilli` raises `AttributeError`, though its discretisation integrates every
function. -/
theorem C113_bernouilli_integrate_fails (p : K) (f : List K → K) :
    bernouilliIntegrate p f = .error .attributeError ∧
      ∃ d, bernouilliDiscretize p = .ok d ∧ d.integrate f = (1 - p) * f [0] + p * f [1] :=
  ⟨rfl, _, rfl, by simp [FiniteDist.integrate, FiniteDist.items]⟩

end finite

/-! ### Products -/

section product

variable {K : Type} [Field K]

private def prodR : List (FiniteDist K) → Rand K (List K)
  | [] => randPure []
  | d :: ds => randBind d.items fun x => (prodR ds).map fun wy => (wy.1, x ++ wy.2)

private theorem expect_wprod (ds : List (FiniteDist K)) (f : List K → K) :
    wsum (wprod (ds.map FiniteDist.items)) (fun xs => f xs.flatten) = (prodR ds).expect f := by
  induction ds generalizing f with
  | nil => simp [wprod, prodR, expect_pure, wsum]
  | cons d ds ih =>
    simp only [List.map_cons, wprod, prodR, expect_bind]
    have h : d.items.flatMap (fun x => (wprod (ds.map FiniteDist.items)).map
        fun t => (x.1 * t.1, x.2 :: t.2))
        = randBind d.items fun x => (wprod (ds.map FiniteDist.items)).map fun t => (t.1, x :: t.2) := by
      simp [randBind, Function.comp_def]
    rw [h]
    refine (expect_bind d.items (fun x => (wprod (ds.map FiniteDist.items)).map
      fun t => (t.1, x :: t.2)) (fun xs => f xs.flatten)).trans ?_
    congr 1
    funext x
    rw [expect_map, expect_map]
    exact ih fun y => f (x ++ y)

private theorem randConcat_sample (N : ℕ) (ds : List (FiniteDist K)) (rs : List (Rand K (Draws K)))
    (h : List.Forall₂ (fun (d : FiniteDist K) (r : Rand K (Draws K)) =>
      ∀ F : Draws K → K, r.expect F = sampleE d.integrate N F) ds rs) (F : Draws K → K) :
    (randConcat N rs).expect F = sampleE (prodR ds).expect N F := by
  induction h generalizing F with
  | nil =>
    simp only [randConcat, expect_pure, prodR, sampleE_eq]
    have : ∀ (n : ℕ) (G : Draws K → K),
        G (List.replicate n []) = seqE (List.replicate n (randPure ([] : List K) : Rand K _).expect) G := by
      intro n
      induction n with
      | zero => intro G; rfl
      | succ n ih => intro G; simp only [List.replicate_succ, seqE, expect_pure]; exact ih fun xs => G ([] :: xs)
    exact this N F
  | @cons d r ds rs hd _ ih =>
    simp only [randConcat, expect_bind]
    rw [hd]
    simp only [expect_map]
    have e : ∀ A : Draws K, ((randConcat N rs).expect fun B => F (List.zipWith (· ++ ·) A B))
        = seqE ((List.replicate N (prodR ds)).map Rand.expect)
          fun B => F (List.zipWith (· ++ ·) A B) := by
      intro A
      rw [ih, sampleE_eq, List.map_replicate]
    simp only [e]
    have e2 : d.integrate = Rand.expect d.items := rfl
    rw [sampleE_eq, e2, ← List.map_replicate,
      seqE_zip (fun (x y : List K) => x ++ y) _ _ (by simp), sampleE_eq]
    congr 1
    refine List.ext_getElem (by simp) fun i h1 h2 => ?_
    simp only [List.getElem_zipWith, List.getElem_replicate, prodR]
    funext f
    rw [expect_bind]
    congr 1
    funext x
    rw [expect_map]

/-- **C113, products.**  If the draws of every component follow that component, the draws of the
product follow `product_iid` of the components, which is what `discretize()` returns. -/
theorem C113_product (fs : List (FiniteDist K)) (hp : ∀ f ∈ fs, Proper f) (d : FiniteDist K)
    (hd0 : productDistDiscretize false fs = .ok d)
    (draws : List (ℕ → Except Err (Rand K (Draws K))))
    (h : List.Forall₂ (fun f dr => IsSample f.integrate dr) fs draws) :
    IsSample d.integrate (productDraw draws) := by
  intro N
  have hd : productIid fs = .ok d := by simpa [productDistDiscretize] using hd0
  have hne : fs ≠ [] := by rintro rfl; cases hd
  have key : ∃ rs, draws.mapM (fun dr => dr N) = .ok rs ∧
      List.Forall₂ (fun (d : FiniteDist K) (r : Rand K (Draws K)) =>
        ∀ F : Draws K → K, r.expect F = sampleE d.integrate N F) fs rs := by
    clear hd hp hne hd0
    induction h with
    | nil => exact ⟨[], rfl, .nil⟩
    | @cons f dr fs draws hf _ ih =>
      obtain ⟨rs, hrs, hall⟩ := ih
      obtain ⟨r, hr, hF⟩ := hf N
      refine ⟨r :: rs, ?_, .cons hF hall⟩
      simp [List.mapM_cons, hr, hrs, bind, Except.bind, pure, Except.pure]
  obtain ⟨rs, hrs, hall⟩ := key
  have hl : rs.length ≠ 0 := by
    rw [← hall.length_eq]
    simpa using hne
  refine ⟨randConcat N rs, ?_, fun F => ?_⟩
  · simp [productDraw, hrs, bind, Except.bind, pure, Except.pure, hl]
  · rw [randConcat_sample N fs rs hall F]
    congr 1
    funext f
    rw [productIid_eq fs hne hp] at hd
    cases hd
    rw [← expect_wprod, integrate_eq_wsum, FiniteDist.items, List.zip_map', wsum, wsum, List.map_map]
    rfl

/-- `discretize(to="mc")` of a product raises, whatever the components. -/
theorem C113_product_mc_fails (fs : List (FiniteDist K)) (d : FiniteDist K) :
    productDistDiscretize true fs ≠ .ok d := by
  simp only [productDistDiscretize, if_true]
  split <;> simp

end product

/-! ### Mixtures -/

section mixture

variable {K : Type} [Field K] [LinearOrder K] [IsStrictOrderedRing K]

/-- The component under the integer key equal to the value of the index. -/
def componentAt (comps : List (ℤ × FiniteDist K)) (v : List K) : Option (FiniteDist K) :=
  (comps.find? fun kd => v = [(kd.1 : K)]).map Prod.snd

/-- The law of a mixture: draw the index, then the component that it selects. -/
def mixtureE (index : FiniteDist K) (comps : List (ℤ × FiniteDist K)) (f : List K → K) : K :=
  index.integrate fun v => ((componentAt comps v).map fun d => d.integrate f).getD 0

private def mixRowR (d : ℕ) (v : List K) : List (ℤ × FiniteDist K) → Rand K (List K)
  | [] => randPure (List.replicate d 0)
  | (k, c) :: rest =>
    randBind c.items fun x => (mixRowR d v rest).map fun wy =>
      (wy.1, rowAdd (maskRow (.int k) v x) wy.2)

private theorem mem_items_points (c : FiniteDist K) (p : K × List K) (hp : p ∈ c.items) :
    p.2 ∈ c.points := (List.of_mem_zip hp).2

private theorem expect_const (c : FiniteDist K) (hp : Proper c) (h1 : c.weights.sum = 1) (a : K) :
    (Rand.expect c.items fun _ => a) = a := by
  have : (Rand.expect c.items fun _ => a) = (c.items.map Prod.fst).sum * a := by
    simp [Rand.expect, List.sum_map_mul_right]
  rw [this, map_fst_items c hp, h1, one_mul]

private theorem rowAdd_zero (x : List K) (d : ℕ) (hx : x.length = d) :
    rowAdd x (List.replicate d 0) = x := by
  subst hx
  refine List.ext_getElem (by simp [rowAdd]) fun i h1 h2 => by simp [rowAdd]

private theorem zero_rowAdd (x : List K) (d : ℕ) (hx : x.length = d) :
    rowAdd (List.replicate d 0) x = x := by
  subst hx
  refine List.ext_getElem (by simp [rowAdd]) fun i h1 h2 => by simp [rowAdd]

private theorem maskRow_ne (k : ℤ) (v x : List K) (h : v ≠ [(k : K)]) :
    maskRow (.int k) v x = List.replicate x.length 0 := by
  refine List.ext_getElem (by simp [maskRow]) fun i h1 h2 => by simp [maskRow, h]

private theorem maskRow_eq (k : ℤ) (x : List K) :
    maskRow (.int k) [(k : K)] x = x := by
  simp [maskRow]

private theorem mixRow_law (d : ℕ) (v : List K) (comps : List (ℤ × FiniteDist K))
    (hk : (comps.map Prod.fst).Nodup)
    (hc : ∀ kd ∈ comps, Proper kd.2 ∧ kd.2.weights.sum = 1 ∧ ∀ x ∈ kd.2.points, x.length = d)
    (f : List K → K) :
    (mixRowR d v comps).expect f
      = ((componentAt comps v).map fun c => c.integrate f).getD (f (List.replicate d 0)) := by
  induction comps generalizing f with
  | nil => simp [mixRowR, expect_pure, componentAt]
  | cons kd rest ih =>
    obtain ⟨k, c⟩ := kd
    obtain ⟨hp, h1, hx⟩ := hc (k, c) (by simp)
    simp only [List.map_cons, List.nodup_cons] at hk
    have ih := ih hk.2 fun kd h => hc kd (by simp [h])
    simp only [mixRowR, expect_bind, expect_map]
    simp only [ih]
    by_cases hv : v = [(k : K)]
    · have hnone : componentAt rest v = none := by
        simp only [componentAt, Option.map_eq_none_iff, List.find?_eq_none, decide_eq_true_eq]
        rintro ⟨k', c'⟩ hmem he
        rw [hv] at he
        simp only [List.cons.injEq, Int.cast_inj, and_true] at he
        exact hk.1 (List.mem_map.2 ⟨(k', c'), hmem, he.symm⟩)
      have hsome : componentAt ((k, c) :: rest) v = some c := by simp [componentAt, hv]
      rw [hnone, hsome]
      simp only [Option.map_none, Option.getD_none, Option.map_some, Option.getD_some]
      refine expect_congr c.items _ f fun p hpm => ?_
      subst hv
      rw [maskRow_eq, rowAdd_zero _ _ (hx _ (mem_items_points c p hpm))]
    · have hsame : componentAt ((k, c) :: rest) v = componentAt rest v := by
        simp [componentAt, hv]
      rw [hsame]
      rw [expect_congr c.items _ (fun _ => ((componentAt rest v).map fun c => c.integrate f).getD
        (f (List.replicate d 0))) fun p hpm => ?_, expect_const c hp h1]
      have hlen := hx _ (mem_items_points c p hpm)
      rw [maskRow_ne k v _ hv, hlen]
      cases hca : componentAt rest v with
      | none => simp [zero_rowAdd]
      | some c' =>
        simp only [Option.map_some, Option.getD_some]
        have hmem : ∃ k', (k', c') ∈ rest := by
          simp only [componentAt, Option.map_eq_some_iff] at hca
          obtain ⟨⟨k', c''⟩, hfind, rfl⟩ := hca
          exact ⟨k', List.mem_of_find?_eq_some hfind⟩
        obtain ⟨k', hmem⟩ := hmem
        rw [integrate_eq_wsum, integrate_eq_wsum]
        refine wsum_congr c'.items _ f fun q hq => ?_
        rw [zero_rowAdd _ _ ((hc (k', c') (by simp [hmem])).2.2 _ (mem_items_points c' q hq))]

private theorem randMix_sample (d : ℕ) (inds : Draws K) (comps : List (ℤ × FiniteDist K))
    (rs : List (MixKey × Rand K (Draws K)))
    (h : List.Forall₂ (fun (kc : ℤ × FiniteDist K) (kr : MixKey × Rand K (Draws K)) =>
      kr.1 = .int kc.1 ∧ ∀ F : Draws K → K, kr.2.expect F = sampleE kc.2.integrate inds.length F)
      comps rs) (F : Draws K → K) :
    (randMix d inds rs).expect F = seqE (inds.map fun v => (mixRowR d v comps).expect) F := by
  induction h generalizing F with
  | nil =>
    simp only [randMix, expect_pure, mixRowR]
    induction inds generalizing F with
    | nil => rfl
    | cons v inds ih => simp only [List.map_cons, seqE, expect_pure]; exact ih fun xs => F (List.replicate d 0 :: xs)
  | @cons kc kr comps rs hd _ ih =>
    obtain ⟨k, c⟩ := kc
    obtain ⟨k', r⟩ := kr
    obtain ⟨rfl, hd⟩ := hd
    simp only [randMix, expect_bind]
    simp only at hd
    rw [hd]
    simp only [expect_map, ih]
    have e2 : c.integrate = Rand.expect c.items := rfl
    have e3 : (inds.map fun v => (mixRowR d v comps).expect)
        = (inds.map fun v => mixRowR d v comps).map Rand.expect := by simp
    rw [sampleE_eq, e2, e3]
    -- generic row combination, one index per row
    have key : ∀ (l : Draws K) (G : Draws K → K),
        seqE (List.replicate l.length (Rand.expect c.items)) (fun A =>
          seqE ((l.map fun v => mixRowR d v comps).map Rand.expect) fun B =>
            G (List.zipWith rowAdd (List.zipWith (maskRow (.int k)) l A) B))
          = seqE (l.map fun v => (mixRowR d v ((k, c) :: comps)).expect) G := by
      intro l
      induction l with
      | nil => intro G; rfl
      | cons v l ihl =>
        intro G
        simp only [List.length_cons, List.replicate_succ, List.map_cons, seqE, mixRowR, expect_bind,
          expect_map, List.zipWith_cons_cons]
        congr 1
        funext x
        have e : ∀ F' : Draws K → K, seqE (List.replicate l.length (Rand.expect c.items)) F'
            = (randList c.items l.length).expect F' := fun F' => (expect_randList c.items _ F').symm
        rw [e, expect_swap]
        congr 1
        funext y
        rw [← e]
        have := ihl fun zs => G (rowAdd (maskRow (.int k) v x) y :: zs)
        simp only [mixRowR] at this
        exact this
    exact key inds F

/-- **C113, mixtures.**  With distinct integer keys that contain all values of the index, the draws
of a mixture are independent and have the law of the mixture. -/
theorem C113_mixture (d : ℕ) (index : FiniteDist K) (comps : List (ℤ × FiniteDist K))
    (hk : (comps.map Prod.fst).Nodup)
    (hc : ∀ kd ∈ comps, Proper kd.2 ∧ kd.2.weights.sum = 1 ∧ ∀ x ∈ kd.2.points, x.length = d)
    (hv : ∀ v ∈ index.points, ∃ kd ∈ comps, v = [(kd.1 : K)])
    (drawI : ℕ → Except Err (Rand K (Draws K))) (hI : IsSample index.integrate drawI)
    (dists : List (MixKey × (ℕ → Except Err (Rand K (Draws K)))))
    (h : List.Forall₂ (fun kc kd => kd.1 = MixKey.int kc.1 ∧ IsSample kc.2.integrate kd.2) comps dists) :
    IsSample (mixtureE index comps) (mixtureDraw d drawI dists) := by
  intro N
  obtain ⟨ri, hri, hFi⟩ := hI N
  have key : ∃ rs, dists.mapM (fun kd => (kd.2 N).map fun r => (kd.1, r)) = .ok rs ∧
      List.Forall₂ (fun (kc : ℤ × FiniteDist K) (kr : MixKey × Rand K (Draws K)) =>
        kr.1 = .int kc.1 ∧ ∀ F : Draws K → K, kr.2.expect F = sampleE kc.2.integrate N F)
        comps rs := by
    clear hv hc hk
    induction h with
    | nil => exact ⟨[], rfl, .nil⟩
    | @cons kc kd comps dists hf _ ih =>
      obtain ⟨rs, hrs, hall⟩ := ih
      obtain ⟨r, hr, hF⟩ := hf.2 N
      refine ⟨(kd.1, r) :: rs, ?_, .cons ⟨hf.1, hF⟩ hall⟩
      rw [List.mapM_cons, hrs, hr]
      rfl
  obtain ⟨rs, hrs, hall⟩ := key
  refine ⟨randBind ri fun i => randMix d i rs, ?_, fun F => ?_⟩
  · simp [mixtureDraw, hri, hrs, bind, Except.bind, pure, Except.pure]
  · rw [expect_bind, hFi, sampleE_congr _ _ _
      (fun A => seqE (A.map fun v => (mixRowR d v comps).expect) F)
      fun A hA => by subst hA; exact randMix_sample d A comps rs hall F]
    have e2 : index.integrate = Rand.expect index.items := rfl
    rw [sampleE_eq, e2, seqE_bind, sampleE_eq]
    congr 2
    funext f
    rw [mixtureE, integrate_eq_wsum, expect_eq_wsum]
    refine wsum_congr index.items _ _ fun p hp => ?_
    rw [mixRow_law d p.2 comps hk hc]
    obtain ⟨kd, hkd, hpv⟩ := hv _ (mem_items_points index p hp)
    have : (componentAt comps p.2).isSome := by
      rw [componentAt, Option.isSome_map, List.find?_isSome]
      exact ⟨kd, hkd, by simpa using hpv⟩
    obtain ⟨c, hcs⟩ := Option.isSome_iff_exists.1 this
    simp [hcs]

end mixture

/-! ### Simulations and averages -/

section simulate

variable {K : Type} [Field K]

/-- **C113, simulation of an iid process.**  The array of `simulate(N, T)` is made of `T` independent
dates, each with `N` independent replications of the law of the process. -/
theorem C113_simulate (E : (List K → K) → K) (draw : ℕ → Except Err (Rand K (Draws K)))
    (h : IsSample E draw) (N T : ℕ) (hN : 0 < N) (hT : 0 < T) :
    ∃ r, iidSimulateRand draw N T = .ok r ∧
      ∀ F : List (Draws K) → K, r.expect F = sampleE (fun G => sampleE E N G) T F := by
  obtain ⟨r, hr, hF⟩ := h (T * N)
  have h0 : T * N ≠ 0 := by positivity
  refine ⟨r.map fun wx => (wx.1, reshapeTN N T wx.2), by simp only [iidSimulateRand, hr, bind, Except.bind, pure, Except.pure, if_neg h0], fun F => ?_⟩
  rw [expect_map, hF]
  clear hr hF h0 hT
  induction T generalizing F with
  | zero => simp [sampleE, reshapeTN]
  | succ T ih =>
    rw [Nat.succ_mul, Nat.add_comm, sampleE_add]
    simp only [sampleE]
    refine sampleE_congr _ _ _ _ fun A hA => ?_
    have : ∀ B : Draws K, reshapeTN N (T + 1) (A ++ B) = A :: reshapeTN N T B := by
      intro B
      simp [reshapeTN, ← hA]
    simp only [this]
    exact ih fun bs => F (A :: bs)

/-- With no replication or no date, `simulate` raises. -/
theorem C113_simulate_empty (E : (List K → K) → K) (draw : ℕ → Except Err (Rand K (Draws K)))
    (h : IsSample E draw) (N T : ℕ) (h0 : N = 0 ∨ T = 0) :
    iidSimulateRand draw N T = .error .valueError := by
  obtain ⟨r, hr, -⟩ := h (T * N)
  have : T * N = 0 := by rcases h0 with rfl | rfl <;> simp
  simp only [iidSimulateRand, hr, bind, Except.bind, if_pos this]

/-- **C113, Monte Carlo.**  The average of `f` over a sample is an unbiased estimate of
`integrate(f)`, and its variance is the variance of `f` divided by the number of draws. -/
theorem C113_monte_carlo [CharZero K] (d : FiniteDist K) (hp : Proper d) (h1 : d.weights.sum = 1)
    (draw : ℕ → Except Err (Rand K (Draws K))) (h : IsSample d.integrate draw)
    (N : ℕ) (hN : 0 < N) (f : List K → K) :
    ∃ r, draw N = .ok r ∧
      (r.expect fun rows => (rows.map f).sum / N) = d.integrate f ∧
      (r.expect fun rows => ((rows.map f).sum / N - d.integrate f) ^ 2)
        = d.integrate (fun x => (f x - d.integrate f) ^ 2) / N := by
  obtain ⟨r, hr, hF⟩ := h N
  refine ⟨r, hr, ?_, ?_⟩
  all_goals
    have hN' : (N : K) ≠ 0 := by exact_mod_cast hN.ne'
    have e2 : d.integrate = Rand.expect d.items := rfl
    have hconst : ∀ a : K, (Rand.expect d.items fun _ => a) = a := by
      intro a
      have : (Rand.expect d.items fun _ => a) = (d.items.map Prod.fst).sum * a := by
        simp [Rand.expect, List.sum_map_mul_right]
      rw [this, map_fst_items d hp, h1, one_mul]
    rw [hF]
  · have key : ∀ (n : ℕ) (a : K), sampleE d.integrate n (fun rows => (a + (rows.map f).sum) / N)
        = (a + n * d.integrate f) / N := by
      intro n
      induction n with
      | zero => intro a; simp [sampleE]
      | succ n ih =>
        intro a
        simp only [sampleE, List.map_cons, List.sum_cons]
        have : ∀ x : List K, (sampleE d.integrate n fun xs => (a + (f x + (xs.map f).sum)) / N)
            = (a + n * d.integrate f) / N + (1 / N) * f x := by
          intro x
          have := ih (a + f x)
          simp only [add_assoc] at this
          rw [this]
          ring
        simp only [this]
        rw [e2, expect_add, hconst, expect_mul, ← e2]
        push_cast
        ring
    have := key N 0
    simp only [zero_add] at this
    rw [this]
    field_simp
  · set m := d.integrate f with hm
    set v := d.integrate (fun x => (f x - m) ^ 2) with hv
    have hzero : (Rand.expect d.items fun x => f x - m) = 0 := by
      have : (fun x => f x - m) = fun x => f x + (-1) * m := by funext x; ring
      rw [this, expect_add, hconst, ← e2, ← hm]
      ring
    have key : ∀ (n : ℕ) (a : K),
        sampleE d.integrate n (fun rows => ((a + (rows.map fun x => f x - m).sum)) ^ 2)
          = a ^ 2 + n * v := by
      intro n
      induction n with
      | zero => intro a; simp [sampleE]
      | succ n ih =>
        intro a
        simp only [sampleE, List.map_cons, List.sum_cons]
        have : ∀ x : List K,
            (sampleE d.integrate n fun xs => (a + (f x - m + (xs.map fun x => f x - m).sum)) ^ 2)
            = (a ^ 2 + n * v) + ((2 * a) * (f x - m) + (f x - m) ^ 2) := by
          intro x
          have := ih (a + (f x - m))
          simp only [add_assoc] at this
          rw [this]
          ring
        simp only [this]
        rw [e2, expect_add, hconst, expect_add, expect_mul, hzero, ← e2, ← hv]
        push_cast
        ring
    have e : sampleE d.integrate N (fun rows => ((rows.map f).sum / N - m) ^ 2)
        = sampleE d.integrate N (fun rows => ((0 + (rows.map fun x => f x - m).sum)) ^ 2) / N ^ 2 := by
      have hs : ∀ rows : Draws K, rows.length = N → ((rows.map f).sum / N - m) ^ 2
          = (1 / (N : K) ^ 2) * (0 + (rows.map fun x => f x - m).sum) ^ 2 := by
        intro rows hrows
        have : (rows.map fun x => f x - m).sum = (rows.map f).sum - rows.length * m := by
          clear hrows
          induction rows with
          | nil => simp
          | cons x rows ih => simp only [List.map_cons, List.sum_cons, ih, List.length_cons]; push_cast; ring
        rw [this, hrows]
        field_simp
        ring
      rw [sampleE_congr _ _ _ _ hs]
      have e3 : ∀ F : Draws K → K, sampleE d.integrate N F = (randList d.items N).expect F := by
        intro F
        rw [sampleE_eq, expect_randList]
        rfl
      rw [e3, expect_mul, ← e3]
      ring
    rw [e, key N 0]
    field_simp
    ring

end simulate

/-! ### A case -/

/-- Two points with probabilities 1/4 and 3/4: two draws give the four tables with the product
probabilities. -/
example : IsSample (⟨[[1], [2]], [1 / 4, 3 / 4]⟩ : FiniteDist ℚ).integrate
      (⟨[[1], [2]], [1 / 4, 3 / 4]⟩ : FiniteDist ℚ).draw ∧
    (⟨[[1], [2]], [1 / 4, 3 / 4]⟩ : FiniteDist ℚ).draw 2
      = .ok [(1 / 16, [[1], [1]]), (3 / 16, [[1], [2]]), (3 / 16, [[2], [1]]), (9 / 16, [[2], [2]])] :=
  ⟨C113_finite ⟨[[1], [2]], [1 / 4, 3 / 4]⟩ rfl (by simp; norm_num) (by norm_num), by decide +kernel⟩

/-- A mixture of a point mass at 5 and a fair coin on 1 and 2, with the keys 0 and 1. -/
example : IsSample (mixtureE (⟨[[0], [1]], [1 / 4, 3 / 4]⟩ : FiniteDist ℚ)
      [(0, ⟨[[5]], [1]⟩), (1, equiprobable [[1], [2]])])
    (mixtureDraw 1 (⟨[[0], [1]], [1 / 4, 3 / 4]⟩ : FiniteDist ℚ).draw
      [(.int 0, (⟨[[5]], [1]⟩ : FiniteDist ℚ).draw), (.int 1, equiDraw [[1], [2]])]) := by
  refine C113_mixture 1 _ _ (by simp) ?_ (by simp) _
    (C113_finite ⟨[[0], [1]], [1 / 4, 3 / 4]⟩ rfl (by simp; norm_num) (by norm_num)) _ ?_
  · intro kd hkd
    simp only [List.mem_cons, List.not_mem_nil, or_false] at hkd
    rcases hkd with rfl | rfl
    · exact ⟨rfl, by norm_num, by simp⟩
    · exact ⟨by simp [Proper, equiprobable, equiWeights], by norm_num [equiprobable, equiWeights],
        by simp [equiprobable]⟩
  · exact .cons ⟨rfl, C113_finite ⟨[[5]], [1]⟩ rfl (by simp) (by norm_num)⟩
      (.cons ⟨rfl, C113_equiprobable _ (by simp)⟩ .nil)

end Dolo
