import Verif.Lemmas.Markov
import Verif.Model.Markov
import Verif.Props.Cartesian

/-!
# C11: products of Markov chains
-/

set_option linter.unusedSectionVars false

namespace Dolo

variable {K : Type} [Field K]

/-- A chain with `n` nodes and an `n × n` transition matrix. -/
def MChain.WellFormed (c : MChain K) : Prop :=
  c.transitions.length = c.values.length ∧ ∀ row ∈ c.transitions, row.length = c.values.length

/-- Numbers of states of the chains. -/
abbrev stateCounts (cs : List (MChain K)) : List ℕ := cs.map fun c => c.values.length

/-! ### helper lemmas -/

private def catRows (A B : List (List K)) : List (List K) :=
  A.flatMap fun x => B.map fun y => x ++ y

private theorem isSquare_iff (n : ℕ) (t : List (List K)) :
    isSquare n t = true ↔ t.length = n ∧ ∀ row ∈ t, row.length = n := by
  simp [isSquare]

private theorem tensorMarkov2_eq (c d : MChain K) (hc : c.WellFormed) (hd : d.WellFormed) :
    tensorMarkov2 (c.values, c.transitions) (d.values, d.transitions)
      = .ok (catRows c.values d.values, kronMat c.transitions d.transitions) := by
  have h1 : isSquare c.values.length c.transitions = true := (isSquare_iff _ _).2 hc
  have h2 : isSquare d.values.length d.transitions = true := (isSquare_iff _ _).2 hd
  simp only [tensorMarkov2, h1, h2, Bool.not_true, Bool.false_eq_true, if_false]
  rw [hc.1, hd.1]
  congr 2
  have h3 : ∀ (A : List (List K)) (B : List (List K)),
      List.zipWith (fun a b => a ++ b) (npRepeat A B.length) ((List.replicate A.length B).flatten)
        = catRows A B := by
    intro A B
    induction A with
    | nil => simp [npRepeat, catRows]
    | cons x A ih =>
      simp only [npRepeat, List.flatMap_cons, List.length_cons, List.replicate_succ,
        List.flatten_cons, catRows] at ih ⊢
      rw [List.zipWith_append (by simp), ih]
      congr 1
      clear ih
      induction B with
      | nil => simp
      | cons y ys ihy => simp [List.replicate_succ, ihy]
  exact h3 _ _

private theorem wellFormed_cat (c d : MChain K) (hc : c.WellFormed) (hd : d.WellFormed) :
    (MChain.mk (kronMat c.transitions d.transitions) (catRows c.values d.values)).WellFormed := by
  have hl : (catRows c.values d.values).length = c.values.length * d.values.length := by
    simp [catRows, List.length_flatMap]
  refine ⟨?_, ?_⟩
  · show (kronMat c.transitions d.transitions).length = _
    rw [hl]
    simp [kronMat, List.length_flatMap, hc.1, hd.1]
  · intro row hrow
    show row.length = (catRows c.values d.values).length
    rw [hl]
    simp only [kronMat, List.mem_flatMap, List.mem_map] at hrow
    obtain ⟨a, ha, b, hb, rfl⟩ := hrow
    rw [length_kronVec, hc.2 a ha, hd.2 b hb]

private theorem tensorMarkov_eq (c d : MChain K) (rest : List (MChain K))
    (hc : c.WellFormed) (hd : d.WellFormed) (hr : ∀ e ∈ rest, e.WellFormed) :
    tensorMarkov ((c :: d :: rest).map fun m => (m.values, m.transitions))
      = .ok ((prodRows ((c :: d :: rest).map MChain.values)).map List.flatten,
          kronMatR ((c :: d :: rest).map MChain.transitions)) := by
  induction rest generalizing c d with
  | nil =>
    simp only [List.map_cons, List.map_nil, tensorMarkov]
    rw [tensorMarkov2_eq c d hc hd]
    congr 2
    · simp only [catRows, prodRows, List.map_flatMap]
      congr 1; funext x
      induction d.values with
      | nil => rfl
      | cons y ys ih => simp [ih]
    · simp [kronMatR, kronMat, kronVec_one]
  | cons e rest ih =>
    simp only [List.map_cons, tensorMarkov]
    rw [tensorMarkov2_eq c d hc hd]
    simp only [bind, Except.bind]
    have h := ih ⟨kronMat c.transitions d.transitions, catRows c.values d.values⟩ e
      (wellFormed_cat c d hc hd) (hr e (by simp)) fun f hf => hr f (by simp [hf])
    simp only [List.map_cons] at h
    rw [h]
    congr 2
    · simp only [prodRows_cons, catRows, List.flatMap_assoc, List.map_flatMap, List.flatMap_map,
        List.map_map]
      congr 1; funext x
      congr 1; funext y
      congr 1; funext z
      refine List.map_congr_left fun w _ => ?_
      simp
    · simp only [kronMatR, kronMat_assoc]

theorem productMc_eq (c d : MChain K) (rest : List (MChain K))
    (hw : ∀ e ∈ c :: d :: rest, e.WellFormed) :
    productMc (c :: d :: rest)
      = .ok ⟨(prodRows ((c :: d :: rest).map MChain.transitions)).map kronR,
          (prodRows ((c :: d :: rest).map MChain.values)).map List.flatten⟩ := by
  simp only [productMc]
  rw [tensorMarkov_eq c d rest (hw c (by simp)) (hw d (by simp)) fun e he => hw e (by simp [he])]
  simp [bind, Except.bind, pure, Except.pure, kronMatR_eq_map]

/-! ### C11 -/

/-- **C11, states and probabilities.**  The product of at least two well-formed chains has one state
per combination of states, in row-major order.  State `(i_1, …, i_m)` carries the concatenated node,
and moves to state `(j_1, …, j_m)` with probability `∏_k P_k[i_k, j_k]`. -/
theorem C11_product_chain (cs : List (MChain K)) (h2 : 2 ≤ cs.length)
    (hw : ∀ c ∈ cs, c.WellFormed) :
    ∃ c, productMc cs = .ok c ∧ c.WellFormed ∧ c.values.length = (stateCounts cs).prod ∧
      ∀ i, ValidIdx (stateCounts cs) i →
        (∃ xs : List (List K), xs.length = cs.length ∧
          c.values[flatIndex (stateCounts cs) i]? = some xs.flatten ∧
          ∀ (k : ℕ) (ck : MChain K) (ik : ℕ), cs[k]? = some ck → i[k]? = some ik →
            xs[k]? = ck.values[ik]?) ∧
        ∃ row, c.transitions[flatIndex (stateCounts cs) i]? = some row ∧
          ∀ j, ValidIdx (stateCounts cs) j →
            ∃ ps : List K, ps.length = cs.length ∧
              row[flatIndex (stateCounts cs) j]? = some ps.prod ∧
              ∀ (k : ℕ) (ck : MChain K) (ik jk : ℕ), cs[k]? = some ck → i[k]? = some ik →
                j[k]? = some jk → ps[k]? = ck.transitions[ik]?.bind fun r => r[jk]? := by
  match cs, h2, hw with
  | c :: d :: rest, _, hw =>
    refine ⟨_, productMc_eq c d rest hw, ?_, ?_, ?_⟩
    · have hT : ((c :: d :: rest).map MChain.transitions).map List.length
          = ((c :: d :: rest).map MChain.values).map List.length := by
        rw [List.map_map, List.map_map]
        exact List.map_congr_left fun e he => (hw e he).1
      refine ⟨?_, ?_⟩
      · simp only [List.length_map, length_prodRows, hT]
      · intro row hrow
        simp only [List.mem_map] at hrow
        obtain ⟨rs, hrs, rfl⟩ := hrow
        rw [length_kronR]
        simp only [List.length_map, length_prodRows]
        have : ∀ l : List (MChain K), (∀ e ∈ l, e.WellFormed) →
            ∀ rs ∈ prodRows (l.map MChain.transitions),
              rs.map List.length = (l.map MChain.values).map List.length := by
          intro l
          induction l with
          | nil => intro _ rs hrs; simp at hrs; subst hrs; rfl
          | cons e l ih =>
            intro hl rs hrs
            simp only [List.map_cons, prodRows_cons, List.mem_flatMap, List.mem_map] at hrs
            obtain ⟨r, hr, t, ht, rfl⟩ := hrs
            simp only [List.map_cons]
            rw [ih (fun e he => hl e (by simp [he])) t ht, (hl e (by simp)).2 r hr]
        rw [this _ hw rs hrs]
    · simp [length_prodRows, stateCounts, Function.comp_def]
    · intro i hi
      have hV : ((c :: d :: rest).map MChain.values).map List.length
          = stateCounts (c :: d :: rest) := by simp [stateCounts]
      have hT : ((c :: d :: rest).map MChain.transitions).map List.length
          = stateCounts (c :: d :: rest) := by
        rw [List.map_map]
        exact List.map_congr_left fun e he => (hw e he).1
      constructor
      · obtain ⟨-, hen⟩ := prodRows_enumerates ((c :: d :: rest).map MChain.values)
        rw [hV] at hen
        obtain ⟨xs, hxs, hl, hk⟩ := hen i hi
        refine ⟨xs, by simpa using hl, by simp only [List.getElem?_map, hxs]; rfl, ?_⟩
        intro k ck ik hck hik
        exact hk k _ ik (by rw [List.getElem?_map, hck]; rfl) hik
      · obtain ⟨-, hen⟩ := prodRows_enumerates ((c :: d :: rest).map MChain.transitions)
        rw [hT] at hen
        obtain ⟨rs, hrs, hl, hk⟩ := hen i hi
        refine ⟨kronR rs, by simp only [List.getElem?_map, hrs]; rfl, ?_⟩
        intro j hj
        have hil := (List.Forall₂.length_eq hi)
        have hrl : rs.map List.length = stateCounts (c :: d :: rest) := by
          apply List.ext_getElem
          · simpa using hl
          · intro k h1 h2
            have hk1 : k < (c :: d :: rest).length := by simpa using h2
            have hk2 : k < i.length := by rw [← hil]; simpa using h2
            have h3 := hk k _ (i[k]) (by rw [List.getElem?_map, List.getElem?_eq_getElem hk1]; rfl)
              (List.getElem?_eq_getElem hk2)
            rw [List.getElem?_eq_getElem (by simpa using h1)] at h3
            have h4 := List.mem_of_getElem? h3.symm
            have h5 := (hw _ (List.getElem_mem hk1)).2 _ h4
            simp only [List.getElem_map, stateCounts]
            exact h5
        obtain ⟨-, hen2⟩ := prodRows_enumerates rs
        rw [hrl] at hen2
        obtain ⟨ps, hps, hl2, hk2⟩ := hen2 j hj
        refine ⟨ps, by rw [hl2]; simpa using hl, by
          simp only [kronR_eq_map, List.getElem?_map, hps]; rfl, ?_⟩
        intro k ck ik jk hck hik hjk
        have h3 := hk k _ ik (by rw [List.getElem?_map, hck]; rfl) hik
        rw [← h3]
        have hkl : k < rs.length := by
          obtain ⟨hk1, -⟩ := List.getElem?_eq_some_iff.1 hck
          rw [hl]; simpa using hk1
        rw [List.getElem?_eq_getElem hkl, Option.bind_some]
        exact hk2 k _ jk (List.getElem?_eq_getElem hkl) hjk

/-- **C11, row sums.**  When every chain's transition matrix has unit row sums, so has the product. -/
theorem C11_product_chain_row_sums (cs : List (MChain K)) (hw : ∀ c ∈ cs, c.WellFormed)
    (hs : ∀ c ∈ cs, ∀ row ∈ c.transitions, row.sum = 1) (c : MChain K)
    (hc : productMc cs = .ok c) : ∀ row ∈ c.transitions, row.sum = 1 := by
  match cs, hw, hs, hc with
  | [], _, _, hc => simp [productMc, tensorMarkov, bind, Except.bind] at hc
  | [_], _, _, hc => simp [productMc, tensorMarkov, bind, Except.bind] at hc
  | c0 :: d :: rest, hw, hs, hc =>
    rw [productMc_eq c0 d rest hw] at hc
    cases hc
    intro row hrow
    simp only [List.mem_map] at hrow
    obtain ⟨rs, hrs, rfl⟩ := hrow
    rw [sum_kronR]
    apply List.prod_eq_one
    intro x hx
    obtain ⟨r, hr, rfl⟩ := List.mem_map.1 hx
    have h2 := mem_prodRows _ _ hrs
    rw [List.forall₂_map_left_iff] at h2
    obtain ⟨k, hk, rfl⟩ := List.mem_iff_getElem.1 hr
    have h3 := List.forall₂_iff_get.1 h2
    have hkl : k < (c0 :: d :: rest).length := by rw [h3.1]; exact hk
    have h4 := h3.2 k hkl hk
    simp only [List.get_eq_getElem] at h4
    exact hs _ (List.getElem_mem hkl) _ h4

/-- **C11, non-negativity.** -/
theorem C11_product_chain_nonneg [LinearOrder K] [IsStrictOrderedRing K] (cs : List (MChain K))
    (hw : ∀ c ∈ cs, c.WellFormed)
    (hs : ∀ c ∈ cs, ∀ row ∈ c.transitions, ∀ p ∈ row, 0 ≤ p) (c : MChain K)
    (hc : productMc cs = .ok c) : ∀ row ∈ c.transitions, ∀ p ∈ row, 0 ≤ p := by
  match cs, hw, hs, hc with
  | [], _, _, hc => simp [productMc, tensorMarkov, bind, Except.bind] at hc
  | [_], _, _, hc => simp [productMc, tensorMarkov, bind, Except.bind] at hc
  | c0 :: d :: rest, hw, hs, hc =>
    rw [productMc_eq c0 d rest hw] at hc
    cases hc
    intro row hrow
    simp only [List.mem_map] at hrow
    obtain ⟨rs, hrs, rfl⟩ := hrow
    have h2 := mem_prodRows _ _ hrs
    rw [List.forall₂_map_left_iff] at h2
    have h3 := List.forall₂_iff_get.1 h2
    have hrow : ∀ r ∈ rs, ∀ p ∈ r, 0 ≤ p := by
      intro r hr
      obtain ⟨k, hk, rfl⟩ := List.mem_iff_getElem.1 hr
      have hkl : k < (c0 :: d :: rest).length := by rw [h3.1]; exact hk
      have h4 := h3.2 k hkl hk
      simp only [List.get_eq_getElem] at h4
      exact hs _ (List.getElem_mem hkl) _ h4
    clear h2 h3 hrs
    intro p hp
    induction rs generalizing p with
    | nil => simp [kronR] at hp; rw [hp]; exact zero_le_one
    | cons r rs ih =>
      simp only [kronR, kronVec, List.mem_flatMap, List.mem_map] at hp
      obtain ⟨x, hx, y, hy, rfl⟩ := hp
      exact mul_nonneg (hrow r (by simp) x hx)
        (ih (fun s hs => hrow s (by simp [hs])) y hy)

/-- Fewer than two chains raise. -/
theorem C11_too_few (cs : List (MChain K)) (h : cs.length < 2) :
    ∃ m, productMc cs = .error (.exception m) := by
  match cs, h with
  | [], _ =>
    refine ⟨"Incorrect number of arguments. Expected at least 2.", ?_⟩
    simp only [productMc, List.map_nil, tensorMarkov, bind, Except.bind]
  | [_], _ =>
    refine ⟨"Incorrect number of arguments. Expected at least 2.", ?_⟩
    simp only [productMc, List.map_cons, List.map_nil, tensorMarkov, bind, Except.bind]
  | _ :: _ :: _, h => simp at h; omega

/-- Two chains with two states each. -/
example : productMc [(⟨[[1 / 2, 1 / 2], [0, 1]], [[10], [20]]⟩ : MChain ℚ),
    ⟨[[1, 0], [1 / 4, 3 / 4]], [[1], [2]]⟩] = .ok
    ⟨[[1 / 2, 0, 1 / 2, 0], [1 / 8, 3 / 8, 1 / 8, 3 / 8], [0, 0, 1, 0], [0, 0, 1 / 4, 3 / 4]],
      [[10, 1], [10, 2], [20, 1], [20, 2]]⟩ := by
  rw [productMc_eq _ _ _ (by
    intro e he
    simp at he
    rcases he with rfl | rfl <;> simp [MChain.WellFormed])]
  norm_num [kronR, kronVec]

end Dolo
