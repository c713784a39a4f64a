import Verif.Model.ToDag

/-!
# Connected components

`PDAG._undirected_reachable` / `chain_components` (pdag.py:341-366) and `AncestralGraph._bidirected_reachable` /
`c_components` (ancestral_graph.py:992-1022) are the same code over different neighbour dictionaries; the dictionary is the
parameter `next`.
-/

namespace Model

universe u
variable {α : Type u} [DecidableEq α]

/-- `_undirected_reachable` (pdag.py:341-346), `_bidirected_reachable` (ancestral_graph.py:992-998). The state is
`(tmp, visited)`; both sets are shared by all recursive calls; `filter` is lazy, so membership in `visited` is tested when
the neighbour is reached. -/
def reachable (next : α → Finset α) (o : SetOrder (α × Finset α) α) (st : Finset α × Finset α) (node : α) :
    Option (Finset α × Finset α) :=
  (o.ord (node, st.2) (next node)).foldlM
    (fun st c => if c ∉ st.2 then reachable next o st c else some st) (insert node st.1, insert node st.2)
partial_fixpoint

/-- The `while node_queue` loop (pdag.py:360-364, ancestral_graph.py:1017-1020); `keep` is the test before `append`. -/
def componentsLoop (next : α → Finset α) (o : SetOrder (α × Finset α) α) (pk : Pick α) (keep : Finset α → Bool)
    (n : ℕ) (queue visited : Finset α) (comps : List (Finset α)) : Option (List (Finset α)) :=
  if h : queue.Nonempty then
    if pk.pick n queue h ∈ visited then
      componentsLoop next o pk keep (n + 1) (queue.erase (pk.pick n queue h)) visited comps
    else
      do
        let st ← reachable next o (∅, visited) (pk.pick n queue h)
        componentsLoop next o pk keep (n + 1) (queue.erase (pk.pick n queue h)) st.2
          (if keep st.1 then comps ++ [st.1] else comps)
  else some comps
partial_fixpoint

namespace PDAG

/-- `induced_subgraph` with `rename=False` (pdag.py:375-378). -/
def inducedSubgraph (oa oe : SetOrder Unit (α × α)) (up : Unpack α) (P : PDAG α) (nodes : Finset α) : PDAG α :=
  new oa oe nodes (P.arcs.filter fun a => a.1 ∈ nodes ∧ a.2 ∈ nodes)
    ((P.edges.image up.fn).filter fun a => a.1 ∈ nodes ∧ a.2 ∈ nodes) ∅

/-- `chain_components` with `rename=False` (pdag.py:356-366). -/
def chainComponents (o : SetOrder (α × Finset α) α) (pk : Pick α) (oa oe : SetOrder Unit (α × α)) (up : Unpack α)
    (P : PDAG α) : Option (List (PDAG α)) :=
  (componentsLoop P.undirected o pk (fun c => decide (1 < c.card)) 0 P.nodes ∅ []).map fun cs =>
    cs.map (P.inducedSubgraph oa oe up)

end PDAG

end Model
