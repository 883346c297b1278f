import Mathlib.Algebra.Order.Ring.Rat
import Mathlib.Tactic.NormNum
import Verif.Lemmas.Distribution

/-!
# C62, C63: options of `discretize(to="mc")`, and draws from mixtures
-/

set_option linter.unusedSectionVars false

namespace Dolo

variable {K : Type} [Field K]

/-! ### C62 -/

/-- What a user expects of `discretize(to="mc", N, method, mass_point)`: the iid chain built from
`discretize(to="iid", N, method, mass_point)`. -/
def McMatchesIid (ppf : K → K) (gh : ℕ → Except Err (FiniteDist K)) (N : ℕ) (method : Method)
    (mp : MassPoint) : Prop :=
  ∀ d, discretizeUni ppf gh .iid N method mp = .ok (.iid d) →
    discretizeUni ppf gh .mc N method mp = .ok (.mc d.toMC)

/-- The Markov-chain target ignores every option: the result is always the one for five equiprobable
median points. -/
theorem C62_mc_ignores_options (ppf : K → K) (gh : ℕ → Except Err (FiniteDist K)) (N : ℕ)
    (method : Method) (mp : MassPoint) :
    ∃ d, discretizeUni ppf gh .iid 5 .equiprobable .median = .ok (.iid d) ∧ d.points.length = 5 ∧
      discretizeUni ppf gh .mc N method mp = .ok (.mc d.toMC) := by
  refine ⟨_, by simp [discretizeUni, discretizeEp, bind, Except.bind, pure, Except.pure]; rfl, ?_,
    by simp [discretizeUni, discretizeEp, bind, Except.bind, pure, Except.pure]⟩
  simp [equiprobable, linspace]

/-- **C62 (partial).**  The chain is the expected one when the options are the defaults `N = 5`,
`method = "equiprobable"`, `mass_point = "median"`.  For other options it is false:
`C62_mc_options_fail`. -/
theorem C62_mc_matches_iid_partial (ppf : K → K) (gh : ℕ → Except Err (FiniteDist K)) :
    McMatchesIid ppf gh 5 .equiprobable .median := by
  intro d hd
  obtain ⟨d', h1, -, h2⟩ := C62_mc_ignores_options ppf gh 5 .equiprobable .median
  rw [h1] at hd
  cases hd
  exact h2

/-- Asking for `N ≠ 5` equiprobable points gives a chain with five states: never the expected one,
for any distribution. -/
theorem C62_mc_options_fail (ppf : K → K) (gh : ℕ → Except Err (FiniteDist K)) (N : ℕ)
    (hN : N ≠ 5) (hN0 : N ≠ 0) (mp : MassPoint) (hmp : mp ≠ .other) (hmid : mp ≠ .middle) :
    ¬ McMatchesIid ppf gh N .equiprobable mp := by
  intro h
  obtain ⟨d', -, h1, h2⟩ := C62_mc_ignores_options ppf gh N .equiprobable mp
  have : ∃ d, discretizeUni ppf gh .iid N .equiprobable mp = .ok (.iid d) ∧ d.points.length = N := by
    refine ⟨_, by simp only [discretizeUni, discretizeEp, hN0, hmp, bind, Except.bind, pure,
      Except.pure, if_false]; rfl, ?_⟩
    cases mp <;> simp_all [equiprobable, linspace]
  obtain ⟨d, hd, hl⟩ := this
  have h3 := h d hd
  rw [h2] at h3
  have h4 : d'.toMC = d.toMC := by
    injection h3 with h3; injection h3
  have h5 : d'.points = d.points := by
    have := congrArg MChain.values h4
    simpa [FiniteDist.toMC] using this
  rw [h5] at h1
  omega

example : ¬ McMatchesIid (fun q : ℚ => q) (fun _ => .error .typeError) 3 .equiprobable .median :=
  C62_mc_options_fail _ _ 3 (by decide) (by decide) _ (by decide) (by decide)

/-! ### C63 -/

/-- **C63 (partial).**  When the components are stored under distinct *integer* keys, a draw of the
mixture is the draw of the component selected by the index (and zero when there is none). -/
theorem C63_mixture_draw_partial (draws : List (ℤ × K)) (hnd : (draws.map Prod.fst).Nodup)
    (ind : ℤ) :
    mixtureDrawOne ind (draws.map fun kd => (MixKey.int kd.1, kd.2))
      = (draws.lookup ind).getD 0 := by
  induction draws with
  | nil => simp [mixtureDrawOne]
  | cons kd r ih =>
    obtain ⟨k, v⟩ := kd
    simp only [List.map_cons, List.nodup_cons] at hnd
    have ih' := ih hnd.2
    simp only [mixtureDrawOne, List.map_cons, List.sum_cons] at ih' ⊢
    rw [ih']
    by_cases h : ind = k
    · subst h
      have : r.lookup ind = none := by
        rw [List.lookup_eq_none_iff]
        intro p hp
        simp only [ne_eq, bne_iff_ne]
        intro heq
        exact hnd.1 (heq ▸ List.mem_map_of_mem hp)
      simp [this]
    · have : (ind == k) = false := by simpa using h
      simp [List.lookup, this, h]

example : mixtureDrawOne 1 [(MixKey.int 0, (5 : ℚ)), (MixKey.int 1, 7)] = 7 := by
  norm_num [mixtureDrawOne]

/-- With string keys, the kind that `discretize` requires, every draw of a mixture is zero. -/
theorem C63_mixture_draw_string_keys_fail (draws : List (String × K)) (ind : ℤ) :
    mixtureDrawOne ind (draws.map fun kd => (MixKey.str kd.1, kd.2)) = 0 := by
  induction draws with
  | nil => simp [mixtureDrawOne]
  | cons kd r ih =>
    simp only [mixtureDrawOne, List.map_cons, List.sum_cons] at ih ⊢
    rw [ih]; simp

/-- No dictionary with one kind of key serves both operations: if `discretize` finds its first
component and all keys are of the same kind, then every draw is zero. -/
theorem C63_no_key_kind_serves_both {β : Type} (dists : List (MixKey × β)) (draw : β → K)
    (hsame : (∀ p ∈ dists, ∃ s, p.1 = .str s) ∨ (∀ p ∈ dists, ∃ n, p.1 = .int n))
    (b : β) (h0 : mixLookup dists 0 = .ok b) (ind : ℤ) :
    mixtureDrawOne ind (dists.map fun p => (p.1, draw p.2)) = 0 := by
  rcases hsame with h | h
  · clear h0
    induction dists with
    | nil => simp [mixtureDrawOne]
    | cons p r ih =>
      obtain ⟨s, hs⟩ := h p (by simp)
      have := ih fun q hq => h q (by simp [hq])
      simp only [mixtureDrawOne, List.map_cons, List.sum_cons] at this ⊢
      rw [this, hs]; simp
  · exfalso
    unfold mixLookup at h0
    split at h0
    · cases h0
    · rename_i d hd
      clear h0
      induction dists with
      | nil => simp at hd
      | cons p r ih =>
        obtain ⟨n, hn⟩ := h p (by simp)
        obtain ⟨k, v⟩ := p
        simp only at hn
        subst hn
        have : (MixKey.str (toString 0) == MixKey.int n) = false := by
          rw [beq_eq_false_iff_ne]; simp
        rw [List.lookup_cons, this] at hd
        exact ih (fun q hq => h q (by simp [hq])) hd

example : mixLookup [(MixKey.str "0", (1 : ℚ)), (MixKey.str "1", 2)] 0 = .ok 1 := rfl

end Dolo
