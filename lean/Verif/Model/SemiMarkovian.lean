import Verif.Model.Complete
import Verif.Model.Components

/-!
# `graphical_models/classes/semi_markovian.py`

Nodes are given as a `set`. Arguments that pass through `to_set` (core_utils.py:80-88) are sets or `None`. `sub_identification` and
`general_identification` are modelled up to their call of `ancestors_of`, which never returns (property C151).
-/

namespace Model

universe u
variable {α : Type u} [DecidableEq α]

/-- semi_markovian.py:130-138; `_undirected` is never used. -/
structure SemiMarkovian (α : Type u) where
  nodes : Finset α
  directed : Finset (α × α)
  bidirected : Finset (Finset α)
  spouses : α → Finset α
  parents : α → Finset α
  children : α → Finset α
  adjacent : α → Finset α

namespace SemiMarkovian

/-- `d[k].add(x)` for a `defaultdict(set)`. -/
def put (d : α → Finset α) (k x : α) : α → Finset α := Function.update d k (insert x (d k))

/-- `_add_directed` (semi_markovian.py:145-153). -/
def addDirected (A : SemiMarkovian α) (i j : α) : SemiMarkovian α :=
  { A with
    nodes := insert j (insert i A.nodes)
    directed := insert (i, j) A.directed
    parents := put A.parents j i
    children := put A.children i j
    adjacent := put (put A.adjacent i j) j i }

/-- `_add_bidirected` (semi_markovian.py:155-163). -/
def addBidirected (A : SemiMarkovian α) (i j : α) : SemiMarkovian α :=
  { A with
    nodes := insert j (insert i A.nodes)
    bidirected := insert {i, j} A.bidirected
    spouses := put (put A.spouses j i) i j
    adjacent := put (put A.adjacent i j) j i }

/-- The constructor (semi_markovian.py:129-143); `od` and `ob` order the two sets of pairs. -/
def new (od ob : SetOrder Unit (α × α)) (nodes : Finset α) (directed bidirected : Finset (α × α)) : SemiMarkovian α :=
  (ob.ord () bidirected).foldl (fun A e => A.addBidirected e.1 e.2)
    ((od.ord () directed).foldl (fun A e => A.addDirected e.1 e.2)
      ⟨nodes, ∅, ∅, fun _ => ∅, fun _ => ∅, fun _ => ∅, fun _ => ∅⟩)

/-- `parents_of` (semi_markovian.py:165-166): `set.union()` without arguments raises `TypeError`. -/
def parentsOf (A : SemiMarkovian α) (nodes : Finset α) : Except (Exn α) (Finset α) :=
  if nodes = ∅ then .error .type else .ok (nodes.biUnion A.parents)

/-- `_add_ancestors` (semi_markovian.py:168-172): the set `ancestors` afterwards, and the exception raised. -/
def addAncestors (A : SemiMarkovian α) (ancestors nodes : Finset α) : Option (Finset α × Option (Exn α)) :=
  match A.parentsOf nodes with
  | .error e => some (ancestors, some e)
  | .ok parents => addAncestors A (ancestors ∪ (parents \ ancestors)) (parents \ ancestors)
partial_fixpoint

/-- `ancestors_of(S, include_argument)` (semi_markovian.py:174-177) for a set `S`: the result or exception, and the caller's set
`S` afterwards. `to_set` returns the same object for a set, so with `include_argument` the caller's set is the one that grows. -/
def ancestorsOf (A : SemiMarkovian α) (S : Finset α) (includeArgument : Bool) :
    Option (Except (Exn α) (Finset α) × Finset α) :=
  (A.addAncestors (if includeArgument then S else ∅) S).map fun r =>
    (match r.2 with
      | some e => .error e
      | none => .ok r.1, if includeArgument then r.1 else S)

/-- `SemiMarkovian(nodes, directed, bidirected)` where `bidirected` holds frozensets: unpacking one of length 1 raises
`ValueError`. -/
def ofSets (od ob : SetOrder Unit (α × α)) (up : Unpack α) (nodes : Finset α) (directed : Finset (α × α))
    (bidirected : Finset (Finset α)) : Except (Exn α) (SemiMarkovian α) :=
  if ∃ e ∈ bidirected, e.card ≠ 2 then .error .value
  else .ok (new od ob nodes directed (bidirected.image up.fn))

/-- `i not in outgoing_mutilated and j not in incoming_mutilated` (semi_markovian.py:182); `in None` raises `TypeError`. -/
def remains (outgoing incoming : Option (Finset α)) (e : α × α) : Except (Exn α) Bool :=
  match outgoing with
  | none => .error .type
  | some o =>
      if e.1 ∈ o then .ok false
      else
        match incoming with
        | none => .error .type
        | some i => .ok (decide (e.2 ∉ i))

/-- The set comprehension (semi_markovian.py:180-183). -/
def remaining (outgoing incoming : Option (Finset α)) : List (α × α) → Except (Exn α) (Finset (α × α))
  | [] => .ok ∅
  | e :: l =>
      match remains outgoing incoming e with
      | .error x => .error x
      | .ok b =>
          match remaining outgoing incoming l with
          | .error x => .error x
          | .ok s => .ok (if b then insert e s else s)

/-- `mutilated_graph` (semi_markovian.py:179-184). -/
def mutilatedGraph (od ob : SetOrder Unit (α × α)) (up : Unpack α) (A : SemiMarkovian α) (outgoing incoming : Option (Finset α)) :
    Except (Exn α) (SemiMarkovian α) :=
  match remaining outgoing incoming (od.ord () A.directed) with
  | .error x => .error x
  | .ok s => ofSets od ob up A.nodes s A.bidirected

/-- `induced_subgraph` (semi_markovian.py:186-191). -/
def inducedSubgraph (od ob : SetOrder Unit (α × α)) (up : Unpack α) (A : SemiMarkovian α) (nodes : Finset α)
    (removed : Option (Finset α)) : Except (Exn α) (SemiMarkovian α) :=
  let nodes := match removed with
    | some r => A.nodes \ r
    | none => nodes
  if ∃ e ∈ A.bidirected, e.card ≠ 2 then .error .value
  else
    .ok (new od ob nodes (A.directed.filter fun e => e.1 ∈ nodes ∧ e.2 ∈ nodes)
      ((A.bidirected.image up.fn).filter fun e => e.1 ∈ nodes ∧ e.2 ∈ nodes))

/-- `c_components` (semi_markovian.py:193-210). -/
def cComponents (A : SemiMarkovian α) (o : SetOrder (α × Finset α) α) (pk : Pick α) : Option (List (Finset α)) :=
  componentsLoop A.spouses o pk (fun _ => true) 0 A.nodes ∅ []

/-- The part of the object read by `topological_sort`, whose code is that of dag.py:634-641, 951-963. -/
def dag (A : SemiMarkovian α) : DAG α := ⟨A.nodes, A.directed, A.adjacent, A.parents, A.children⟩

/-- `topological_sort` (semi_markovian.py:212-234). On a cycle a plain `Exception` is raised. -/
def topologicalSort (A : SemiMarkovian α) (o : SetOrder (Option α) α) : Option (Except (Exn α) (List α)) :=
  (DAG.topologicalSort A.dag o).run.map fun
    | .ok l => .ok l
    | .error (.cycle _) => .error .plain
    | .error e => .error e

end SemiMarkovian

/-! ## Formulas -/

/-- `ProbabilityTerm`, `Product`, `MarginalDistribution` (semi_markovian.py:22-119). -/
inductive Formula (α : Type u) : Type u
  | term (active cond intervened : Finset α)
  | prod (active : Finset α) (terms : List (Formula α))
  | marginal (active marginalized : Finset α) (distribution : Formula α)

namespace Formula

/-- `active_variables` -/
def active : Formula α → Finset α
  | .term a _ _ => a
  | .prod a _ => a
  | .marginal a _ _ => a

/-- `Product(terms)` (semi_markovian.py:57-60): `set.union()` without arguments raises `TypeError`. -/
def product (terms : List (Formula α)) : Except (Exn α) (Formula α) :=
  if terms = [] then .error .type else .ok (.prod (terms.foldl (fun s t => s ∪ t.active) ∅) terms)

/-- `MarginalDistribution(distribution, marginal_variables)` (semi_markovian.py:86-94). -/
def marginalDistribution (f : Formula α) (m : Finset α) : Except (Exn α) (Formula α) :=
  if m ⊆ f.active then .ok (.marginal m (f.active \ m) f) else .error .assertion

/-- The two `assert`s (semi_markovian.py:12-16). -/
def check (f : Formula α) (m c : Finset α) : Bool := Disjoint m c ∧ m ∪ c ⊆ f.active

mutual

/-- `get_conditional(marginal, cond_set)` (semi_markovian.py:40-50, 65-79, 106-117); `None` is the empty set. -/
def getConditional : Formula α → Finset α → Finset α → Except (Exn α) (Formula α)
  | .term a c i, m, d =>
      if check (.term a c i) m d then .ok (.term (if m = ∅ then a \ d else m) (c ∪ d) i) else .error .assertion
  | .prod a ts, m, d =>
      if check (.prod a ts) m d then
        if d = ∅ then marginalDistribution (.prod a ts) m
        else
          match conditionals ts d with
          | .error e => .error e
          | .ok us =>
              match product us with
              | .error e => .error e
              | .ok p =>
                  if (if m = ∅ then a \ d else m) ∪ d = a then .ok p
                  else marginalDistribution p (if m = ∅ then a \ d else m)
      else .error .assertion
  | .marginal a s f, m, d =>
      if check (.marginal a s f) m d then
        if d = ∅ then marginalDistribution f m
        else
          match getConditional f ∅ d with
          | .error e => .error e
          | .ok g => marginalDistribution g (if m = ∅ then a \ d else m)
      else .error .assertion

/-- `[term.get_conditional(cond_set=cond_set) for term in self.terms]` (semi_markovian.py:75). -/
def conditionals : List (Formula α) → Finset α → Except (Exn α) (List (Formula α))
  | [], _ => .ok []
  | t :: ts, d =>
      match getConditional t ∅ d with
      | .error e => .error e
      | .ok u =>
          match conditionals ts d with
          | .error e => .error e
          | .ok us => .ok (u :: us)

end

/-- `marginalize_out` (semi_markovian.py:18-19). -/
def marginalizeOut (f : Formula α) (w : Finset α) : Except (Exn α) (Formula α) := f.getConditional (f.active \ w) ∅

end Formula

namespace SemiMarkovian

/-- `general_identification` (semi_markovian.py:236-279): lines 240-242, and the call of `ancestors_of` on line 245. `es` lists
`available_experiments` in the order of iteration. `rest` is everything after line 245, given the set of ancestors. -/
def generalIdentification (rest : Finset α → Option (Except (Exn α) (Formula α))) (A : SemiMarkovian α) (y x : Finset α)
    (es : List (Finset α)) : Option (Except (Exn α) (Formula α)) :=
  let afterwards := (A.ancestorsOf y true).bind fun
    | (.error e, _) => some (.error e)
    | (.ok s, _) => rest s
  match es.find? fun e => x = e ∩ A.nodes with
  | some e => if e = ∅ then afterwards else some (.ok (.term y ∅ e))
  | none => afterwards

/-- `sub_identification` (semi_markovian.py:281-323): lines 283-284, and the call of `ancestors_of` on line 287; `rest` is everything
after line 287. -/
def subIdentification (rest : Finset α → Option (Except (Exn α) (Formula α))) (A : SemiMarkovian α) (y x : Finset α) (f : Formula α) :
    Option (Except (Exn α) (Formula α)) :=
  if x = ∅ then some (f.marginalizeOut (A.nodes \ y))
  else (A.ancestorsOf y true).bind fun
    | (.error e, _) => some (.error e)
    | (.ok s, _) => rest s

end SemiMarkovian

end Model
