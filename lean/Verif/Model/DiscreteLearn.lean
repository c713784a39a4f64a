import Verif.Model.DiscreteFit
import Verif.Model.Pgm

/-!
# `graphical_models/classes/dags/discrete_dag.py`: `fit` with a classifier, and `predict_from_parents`

The classifiers of `sklearn` and `xgboost` are oracles. Data is as in `Model/DiscreteFit.lean`: natural numbers, with the labels of the
nodes as columns.
-/

namespace Model

open scoped NNReal

variable {N : ℕ}

/-- A fitted classifier: `classes_`, and `predict_proba` for one row. -/
structure Classifier where
  classes : List ℕ
  proba : List ℤ → ℕ → ℝ≥0

/-- `model.fit(X, y)` (discrete_dag.py:855-863). -/
abbrev Trainer (N : ℕ) := (Fin N → List ℕ) → (Fin N → ℕ) → Except (Exn ℕ) Classifier

/-- `itertools.product`. -/
def products {β : Type} : List (List β) → List (List β)
  | [] => [[]]
  | l :: ls => l.flatMap fun a => (products ls).map (a :: ·)

/-- `extract_conditional(model, alphabets, node_alphabet)` (discrete_dag.py:126-139). The labels of the classes are used as positions. -/
noncomputable def extractConditional (m : Classifier) (alphabets : List (List ℤ)) (alphabet : List ℤ) : Except (Exn ℕ) (Tensor ℝ≥0) :=
  let vals := products alphabets
  let probs : Tensor ℝ≥0 := ⟨[vals.length, m.classes.length], fun idx => m.proba (vals.getD (idx.getD 0 0) []) (idx.getD 1 0)⟩
  match probs.reshape (alphabets.map List.length ++ [m.classes.length]) with
  | .error e => .error e
  | .ok t =>
      if m.classes.length = alphabet.length then .ok t
      else if ∃ c ∈ m.classes, alphabet.length ≤ c then .error .index
      else .ok ⟨alphabets.map List.length ++ [alphabet.length], fun idx =>
        if idx.getLastD 0 ∈ m.classes then t.val (idx.dropLast ++ [m.classes.idxOf (idx.getLastD 0)]) else 0⟩

/-- `indicator_conditional(input_alphabets, output_alphabet, value)` (discrete_dag.py:142-148). -/
noncomputable def indicatorConditional (alphabets : List (List ℤ)) (alphabet : List ℤ) (value : ℤ) : Except (Exn ℕ) (Tensor ℝ≥0) :=
  if value ∈ alphabet then
    .ok ⟨alphabets.map List.length ++ [alphabet.length], fun idx => if idx.getLastD 0 = alphabet.idxOf value then 1 else 0⟩
  else .error .value

/-- The table of a node (discrete_dag.py:843-864). -/
noncomputable def learnTable (train : Trainer N) (oz : SetOrder ℕ (List ℕ)) (n : ℕ) (data : Fin N → ℕ → ℕ) (alph : ℕ → List ℤ)
    (v : ℕ) (parents : List ℕ) : Except (Exn ℕ) (Tensor ℝ≥0) :=
  if parents = [] then fitConditional oz n data v (alph v) [] [] 0
  else if n ≤ v then .error .index
  else if h : (Finset.univ.image fun j => data j v).card = 1 ∧ 0 < N then
    indicatorConditional (parents.map alph) (alph v) (data ⟨0, h.2⟩ v)
  else if ∃ p ∈ parents, n ≤ p then .error .index
  else
    match train (fun j => parents.map (data j)) (fun j => data j v) with
    | .error e => .error e
    | .ok m => extractConditional m (parents.map alph) (alph v)

/-- `DiscreteDAG.fit(dag, data, node_alphabets=alphabets, method=...)` (discrete_dag.py:810-865, 878-884) for the methods
`"random_forest"`, `"xgboost"` and `"logistic"`. -/
noncomputable def fitLearned (o ot : SetOrder (Option ℕ) ℕ) (oa : SetOrder Bool (ℕ × ℕ)) (op : SetOrder ℕ ℕ) (oz : SetOrder ℕ (List ℕ))
    (train : Trainer N) (G : DAG ℕ) (n : ℕ) (data : Fin N → ℕ → ℕ) (alphabets : Option (ℕ → List ℤ)) : Run ℕ (DiscreteDAG ℕ) := do
  let pars := fun v => op.ord v (G.parents v)
  let alph ← match alphabets with
    | some a => pure a
    | none => ExceptT.mk (some (defaultAlphabets n data G.nodes))
  let t ← G.topologicalSort ot
  let cond ← t.foldlM (fun (c : ℕ → Tensor ℝ≥0) v => do
    let x ← (ExceptT.mk (some (learnTable train oz n data alph v (pars v))) : Run ℕ (Tensor ℝ≥0))
    return Function.update c v x) fun _ => ⟨[], fun _ => 0⟩
  ExceptT.mk (DiscreteDAG.new o oa G.nodes G.arcs cond pars alph)

/-- What `numpy` makes of an index: negative ones count from the end. -/
def pyIndex (len : ℕ) (i : ℤ) : Option ℕ :=
  if 0 ≤ i ∧ i < len then some i.toNat else if i < 0 ∧ -(len : ℤ) ≤ i then some (i + len).toNat else none

/-- `predict_from_parents(node, parent_vals)` (discrete_dag.py:326-329); `parent_vals` has `N` rows and as many columns as there
are parents. Without columns the index is the empty tuple. More indices than axes are an `IndexError`. -/
def DiscreteDAG.predictFromParents (D : DiscreteDAG ℕ) (node : ℕ) (cols : ℕ) (vals : Fin N → ℕ → ℤ) : Except (Exn ℕ) (Tensor ℝ≥0) :=
  let t := D.cond node
  if cols = 0 then .ok t
  else if t.shape.length < cols then .error .index
  else if ∃ j, ∃ c < cols, pyIndex (t.shape.getD c 0) (vals j c) = none then .error .index
  else .ok ⟨N :: t.shape.drop cols, fun idx =>
    t.val (((List.range cols).map fun c => if h : idx.headD 0 < N then (pyIndex (t.shape.getD c 0) (vals ⟨idx.headD 0, h⟩ c)).getD 0 else 0)
      ++ idx.tail)⟩

end Model
