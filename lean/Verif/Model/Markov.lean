import Verif.Model.Distribution

/-!
# Products of Markov chains

Models `tensor_markov` of `dolo/numeric/discretization/discretization.py` and `product_mc` of
`dolo/numeric/processes.py`.
-/

namespace Dolo

variable {K : Type} [Field K]

/-- `numpy.kron` of two matrices given by rows. -/
def kronMat (A B : List (List K)) : List (List K) :=
  A.flatMap fun ra => B.map fun rb => kronVec ra rb

/-- `t.shape == (n, n)` for a matrix given by rows. -/
def isSquare (n : ℕ) (t : List (List K)) : Bool :=
  t.length == n && t.all fun row => row.length == n

/-- The two-chain branch of `tensor_markov`,
`dolo/numeric/discretization/discretization.py:175-200`: the shape assertions (lines 184-185), the
Kronecker product (187) and the nodes
`column_stack([repeat(n1, q, axis=0), tile(n2, (p, 1))])` (line 198).
A chain is `(values, transitions)`. -/
def tensorMarkov2 (m1 m2 : List (List K) × List (List K)) :
    Except Err (List (List K) × List (List K)) :=
  if !(isSquare m1.1.length m1.2) then .error .assertionError
  else if !(isSquare m2.1.length m2.2) then .error .assertionError
  else
    let t := kronMat m1.2 m2.2
    let p := m1.2.length
    let q := m2.2.length
    let n := List.zipWith (fun a b => a ++ b) (npRepeat m1.1 q) ((List.replicate p m2.1).flatten)
    .ok (n, t)

/-- `tensor_markov(*args)`, lines 158-208: with more than two chains the first two are combined and
the result is put in front of the others; fewer than two raise. -/
def tensorMarkov : List (List (List K) × List (List K)) →
    Except Err (List (List K) × List (List K))
  | [] => .error (.exception "Incorrect number of arguments. Expected at least 2.")
  | [_] => .error (.exception "Incorrect number of arguments. Expected at least 2.")
  | [m1, m2] => tensorMarkov2 m1 m2
  | m1 :: m2 :: m3 :: tail => do
    let prod ← tensorMarkov2 m1 m2
    tensorMarkov (prod :: m3 :: tail)
  termination_by l => l.length

/-- `product_mc(markov_chains)`, `dolo/numeric/processes.py:358-364`. -/
def productMc (chains : List (MChain K)) : Except Err (MChain K) := do
  let (P, Q) ← tensorMarkov (chains.map fun m => (m.values, m.transitions))
  pure ⟨Q, P⟩

end Dolo
