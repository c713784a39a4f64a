{"id": "C01", "title": "topological_sort returns a linear extension", "statement": "If the directed graph held by a DAG object has no directed cycle, topological_sort() returns normally with a list that contains every node exactly once and in which the source of every arc stands before its target, whatever order Python iterates its sets in.", "quantifier": "all finite acyclic graphs; all iteration orders of the node set and of each child set", "why_tests_cant": "set iteration order is hash dependent and there are infinitely many graphs; a test sees one order of a few graphs", "anchors": ["graphical_models/classes/dags/dag.py:DAG.topological_sort", "graphical_models/classes/dags/dag.py:DAG._mark_children_visited"]}
{"id": "C02", "title": "CycleError is raised exactly on cyclic graphs", "statement": "topological_sort() raises CycleError if and only if the arcs contain a directed cycle, and the cycle carried by the exception is a directed walk along arcs whose last node already occurs earlier on it.", "quantifier": "all finite directed graphs, all iteration orders", "why_tests_cant": "both directions range over every graph and every traversal order; a missed back edge shows up only for some order", "anchors": ["graphical_models/classes/dags/dag.py:DAG.topological_sort", "graphical_models/classes/dags/dag.py:DAG._mark_children_visited", "graphical_models/classes/dags/dag.py:CycleError"]}
{"id": "C03", "title": "Checked add_arc keeps the graph acyclic and fails atomically on arcs", "statement": "Starting from an acyclic graph, add_arc(i, j) with its default cycle check succeeds iff i != j and there is no directed path from j to i; on success the arcs are the old arcs plus (i, j); on failure an exception is raised and the set of arcs is as before. Whatever the outcome the graph is acyclic afterwards. (The node set may have grown even on failure.)", "quantifier": "all acyclic graphs, all pairs of hashable nodes including equal nodes and nodes not yet in the graph", "why_tests_cant": "needs every graph and every arc; the interesting inputs are long paths back to the source", "anchors": ["graphical_models/classes/dags/dag.py:DAG.add_arc", "graphical_models/classes/dags/dag.py:DAG.remove_arc", "graphical_models/classes/dags/dag.py:DAG._check_acyclic"]}
{"id": "C04", "title": "Adjacency views agree with the arc set after any history", "statement": "After any sequence of constructor, add_node, add_arc, add_arcs_from, remove_arc, remove_arcs_from, reverse_arc and remove_node calls (succeeding or raising), parents_of, children_of and neighbors_of describe exactly the arcs: i is a parent of j iff (i, j) is an arc, iff j is a child of i, and i, j are neighbors iff one of the two arcs is present; and arcs only mention nodes of the graph.", "quantifier": "all finite histories of mutator calls with arbitrary arguments and outcomes", "why_tests_cant": "four redundant data structures are updated by hand on every path including exception paths; only an inductive invariant covers every history", "anchors": ["graphical_models/classes/dags/dag.py:DAG.add_arc", "graphical_models/classes/dags/dag.py:DAG.add_arcs_from", "graphical_models/classes/dags/dag.py:DAG.remove_arc", "graphical_models/classes/dags/dag.py:DAG.reverse_arc", "graphical_models/classes/dags/dag.py:DAG.remove_node", "graphical_models/classes/dags/dag.py:DAG.neighbors_of"]}
{"id": "C05", "title": "Constructor accepts exactly the acyclic arc sets", "statement": "DAG(nodes, arcs) returns a graph with exactly those arcs and with nodes plus all arc endpoints as node set when the arcs are acyclic, and raises an exception when they contain a cycle.", "quantifier": "all finite node sets and arc sets, all iteration orders", "why_tests_cant": "ranges over all arc sets", "anchors": ["graphical_models/classes/dags/dag.py:DAG.__init__", "graphical_models/classes/dags/dag.py:DAG.add_arcs_from"]}
{"id": "C06", "title": "A failed add_arcs_from leaves the arcs unchanged", "statement": "If add_arcs_from(arcs, check_acyclic=True) raises because of a cycle, the arc set of the graph is the one before the call.", "quantifier": "all acyclic graphs and all arc sets given", "why_tests_cant": "depends on the overlap between the old arcs and the arcs given, for every graph", "anchors": ["graphical_models/classes/dags/dag.py:DAG.add_arcs_from"]}
{"id": "C07", "title": "A failed reverse_arc leaves the graph unchanged", "statement": "If reverse_arc(i, j, check_acyclic=True) raises, the arcs are those before the call; if it succeeds, exactly (i, j) was replaced by (j, i) and the graph is acyclic.", "quantifier": "all acyclic graphs and all pairs of nodes", "why_tests_cant": "depends on the existence of another directed path in an arbitrary graph", "anchors": ["graphical_models/classes/dags/dag.py:DAG.reverse_arc"]}
{"id": "C08", "title": "remove_node removes exactly the node and its incident arcs", "statement": "On an acyclic graph whose views are consistent, remove_node(v) for a node v succeeds, removes v and exactly the arcs incident to v, leaves every other arc and view untouched and keeps the views consistent; for an unknown node it raises KeyError (or does nothing with ignore_error=True) and changes nothing.", "quantifier": "all acyclic graphs with consistent views and all nodes", "why_tests_cant": "ranges over all graphs; the loop mutates the sets of every neighbor", "anchors": ["graphical_models/classes/dags/dag.py:DAG.remove_node"]}
{"id": "C09", "title": "ancestors_of and descendants_of are the transitive closure", "statement": "descendants_of(v) is exactly the set of nodes reachable from v along a nonempty directed path, ancestors_of(v) exactly those from which v is reachable, both always terminate (even on cyclic graphs), are dual to each other, and the set-argument versions are unions. is_ancestor_of(a, d) holds iff there is a nonempty directed path from a to d.", "quantifier": "all finite directed graphs, all nodes, all iteration orders", "why_tests_cant": "reachability through arbitrarily long paths; recursion with a shared mutable accumulator can go wrong only on particular shapes and orders", "anchors": ["graphical_models/classes/dags/dag.py:DAG.ancestors_of", "graphical_models/classes/dags/dag.py:DAG.descendants_of", "graphical_models/classes/dags/dag.py:DAG._add_ancestors", "graphical_models/classes/dags/dag.py:DAG._add_descendants", "graphical_models/classes/dags/dag.py:DAG.is_ancestor_of"]}
{"id": "C10", "title": "ancestor_dict and descendant_dict agree with the single-node queries", "statement": "On an acyclic graph ancestor_dict() maps every node v to ancestors_of(v), and descendant_dict() maps every v to descendants_of(v), whichever topological order is produced internally.", "quantifier": "all finite acyclic graphs, all iteration orders", "why_tests_cant": "correctness of the one-pass propagation depends on the order for every graph", "anchors": ["graphical_models/classes/dags/dag.py:DAG.ancestor_dict", "graphical_models/classes/dags/dag.py:DAG.descendant_dict"]}
{"id": "C11", "title": "dsep decides d-separation", "statement": "For an acyclic graph and node sets A, B, C with A disjoint from C, dsep(A, B, C) terminates and returns True iff there is no node a in A, b in B joined by a path (no repeated node) that is active given C: every collider on it has itself or a descendant in C and no non-collider on it is in C. The answer does not depend on the order in which the schedule set is popped.", "quantifier": "all finite DAGs, all node sets A, B, C, all pop orders of the schedule", "why_tests_cant": "paths are unbounded, the algorithm walks states, not paths, and set.pop is arbitrary", "anchors": ["graphical_models/classes/dags/dag.py:DAG.dsep"]}
{"id": "C12", "title": "dsep is symmetric", "statement": "For A and B both disjoint from C, dsep(A, B, C) == dsep(B, A, C).", "quantifier": "all finite DAGs and node sets, all pop orders on both sides", "why_tests_cant": "the search explores different state spaces from A and from B; equality for all graphs is a theorem", "anchors": ["graphical_models/classes/dags/dag.py:DAG.dsep"]}
{"id": "C13", "title": "dsep satisfies the graphoid rules users rely on", "statement": "For disjoint node sets the relation decided by dsep satisfies decomposition, weak union, contraction, intersection and composition, so that separation statements can be combined as conditional independences.", "quantifier": "all finite DAGs, all disjoint node sets", "why_tests_cant": "universally quantified implications between answers of separate calls", "anchors": ["graphical_models/classes/dags/dag.py:DAG.dsep"]}
{"id": "C14", "title": "dsep_from_given returns exactly the d-separated nodes", "statement": "For an acyclic graph and A disjoint from C, dsep_from_given(A, C) terminates and returns exactly the nodes x outside A and C with dsep(A, x, C) == True.", "quantifier": "all finite DAGs, all A, C, all iteration orders", "why_tests_cant": "two different algorithms (link labelling without backtracking versus Bayes ball) must agree on every graph", "anchors": ["graphical_models/classes/dags/dag.py:DAG.dsep_from_given", "graphical_models/classes/dags/dag.py:DAG.dsep"]}
{"id": "C15", "title": "Every local Markov statement holds", "statement": "On an acyclic graph, local_markov_statements() yields one statement (v, N, P) per node where P is the parents and N all other nodes that are not descendants, and dsep(v, N, P) is True for each of them.", "quantifier": "all finite DAGs", "why_tests_cant": "connects a reachability query with separation on every graph", "anchors": ["graphical_models/classes/dags/dag.py:DAG.local_markov_statements", "graphical_models/classes/dags/dag.py:DAG.dsep"]}
{"id": "C16", "title": "The Markov blanket separates and is the least such set", "statement": "On an acyclic graph v is d-separated from all remaining nodes given markov_blanket_of(v), and every set S of other nodes that d-separates v from all remaining nodes contains markov_blanket_of(v).", "quantifier": "all finite DAGs, all nodes v, all candidate sets S", "why_tests_cant": "minimality quantifies over all separating sets", "anchors": ["graphical_models/classes/dags/dag.py:DAG.markov_blanket_of", "graphical_models/classes/dags/dag.py:DAG.dsep"]}
{"id": "C17", "title": "is_invariant is separation from an intervention node", "statement": "is_invariant(A, I, C) terminates and returns True iff A is d-separated given C from a fresh node whose children are exactly I in the graph augmented with that node (A disjoint from C).", "quantifier": "all finite DAGs, all A, I, C, all pop orders", "why_tests_cant": "semantic characterisation in another graph; unbounded paths", "anchors": ["graphical_models/classes/dags/dag.py:DAG.is_invariant"]}
{"id": "C18", "title": "markov_equivalent holds iff the separation models coincide", "statement": "For two acyclic graphs, markov_equivalent(other) is True iff the graphs have the same nodes and dsep gives the same answer on both for all disjoint A, B, C.", "quantifier": "all pairs of finite DAGs; on the separation side all triples of node sets", "why_tests_cant": "the right hand side quantifies over exponentially many statements per graph pair (Verma-Pearl theorem through the CPDAG algorithm)", "anchors": ["graphical_models/classes/dags/dag.py:DAG.markov_equivalent", "graphical_models/classes/dags/dag.py:DAG.cpdag", "graphical_models/classes/dags/pdag.py:PDAG.remove_unprotected_orientations", "graphical_models/classes/dags/pdag.py:PDAG.__eq__", "graphical_models/classes/dags/dag.py:DAG.dsep"]}
{"id": "C19", "title": "cpdag directs exactly the compelled arcs", "statement": "cpdag() terminates and returns a partially directed graph over the same nodes and the same skeleton in which i -> j is directed iff every DAG with the same nodes, skeleton and v-structures has the arc i -> j, and i - j is undirected iff equivalent DAGs with both orientations exist; independently of iteration order.", "quantifier": "all finite DAGs and all their Markov equivalent DAGs, all iteration orders of the flag-propagation loops", "why_tests_cant": "'compelled' quantifies over the whole equivalence class; the loop updates flags in place so its result could depend on hash order", "anchors": ["graphical_models/classes/dags/dag.py:DAG.cpdag", "graphical_models/classes/dags/pdag.py:PDAG.remove_unprotected_orientations", "graphical_models/classes/dags/dag.py:DAG.arcs_in_vstructures"]}
{"id": "C20", "title": "cpdag is a complete invariant of skeleton and v-structures", "statement": "For acyclic graphs, d1.cpdag() == d2.cpdag() iff d1 and d2 have the same nodes, the same skeleton and the same v-structures.", "quantifier": "all pairs of finite DAGs", "why_tests_cant": "ranges over all pairs of graphs", "anchors": ["graphical_models/classes/dags/dag.py:DAG.cpdag", "graphical_models/classes/dags/dag.py:DAG.vstructures", "graphical_models/classes/dags/dag.py:DAG.skeleton"]}
{"id": "C21", "title": "Reversible arcs are exactly those whose reversal stays in the equivalence class", "statement": "On an acyclic graph an arc (i, j) is in reversible_arcs() iff replacing it by (j, i) gives an acyclic graph with the same v-structures (hence a Markov equivalent one).", "quantifier": "all finite DAGs and all arcs", "why_tests_cant": "the right hand side talks about cycles and colliders anywhere in the modified graph", "anchors": ["graphical_models/classes/dags/dag.py:DAG.reversible_arcs", "graphical_models/classes/dags/dag.py:DAG.is_reversible", "graphical_models/classes/dags/dag.py:DAG.compute_covered_edges"]}
{"id": "C22", "title": "Equivalent DAGs are connected by covered reversals", "statement": "If two DAGs over the same nodes have the same skeleton and v-structures then repeatedly calling reverse_arc on arcs listed by reversible_arcs() transforms one into the other, in exactly as many reversals as arcs they orient differently.", "quantifier": "all pairs of Markov equivalent DAGs", "why_tests_cant": "existence of a path through the class for every pair", "anchors": ["graphical_models/classes/dags/dag.py:DAG.reversible_arcs", "graphical_models/classes/dags/dag.py:DAG.reverse_arc"]}
{"id": "C23", "title": "to_dag returns a consistent extension whenever one exists", "statement": "If a PDAG has a consistent extension (a DAG with the same skeleton, containing all its arcs and with no v-structure beyond those of the PDAG), then to_dag() returns such an extension on its non-isolated nodes, whatever sink is picked in each round.", "quantifier": "all finite PDAGs, all iteration orders", "why_tests_cant": "greedy sink removal must never get stuck, for every choice", "anchors": ["graphical_models/classes/dags/pdag.py:PDAG.to_dag", "graphical_models/classes/dags/pdag.py:PDAG.remove_node"]}
{"id": "C24", "title": "to_dag keeps all nodes", "statement": "to_dag() returns a DAG with the same node set as the PDAG.", "quantifier": "all finite PDAGs", "why_tests_cant": "a one line statement over all inputs; the failing inputs are those with isolated nodes", "anchors": ["graphical_models/classes/dags/pdag.py:PDAG.to_dag"]}
{"id": "C25", "title": "to_dag reports when no consistent extension exists", "statement": "If a PDAG has no consistent extension, to_dag() does not return a DAG that omits adjacencies of the PDAG without signalling an error.", "quantifier": "all finite PDAGs without consistent extension", "why_tests_cant": "needs every non-extendable input", "anchors": ["graphical_models/classes/dags/pdag.py:PDAG.to_dag"]}
{"id": "C26", "title": "all_dags terminates and lists only members of the class", "statement": "For the CPDAG of a DAG, every arc set returned by all_dags() is acyclic, has the same skeleton and v-structures and contains all directed arcs of the CPDAG, and the search terminates.", "quantifier": "all finite DAGs, all iteration and stack orders", "why_tests_cant": "incremental updates of the reversible-arc list along arbitrarily long search paths", "anchors": ["graphical_models/classes/dags/pdag.py:PDAG.all_dags"]}
{"id": "C27", "title": "shd is a metric counting pairs of nodes with different arcs", "statement": "For acyclic graphs d1.shd(d2) is the number of unordered node pairs whose arc status (none, forward, backward) differs; it is 0 iff the arc sets coincide, symmetric, and satisfies the triangle inequality; shd_skeleton is the analogous metric on skeletons and never exceeds shd.", "quantifier": "all pairs and triples of finite DAGs", "why_tests_cant": "triangle inequality over all triples", "anchors": ["graphical_models/classes/dags/dag.py:DAG.shd", "graphical_models/classes/dags/dag.py:DAG.shd_skeleton"]}
{"id": "C28", "title": "PDAG.shd is symmetric and zero only on equal adjacency structures", "statement": "For PDAGs without conflicting edges, shd(p, q) is the number of node pairs with different status (none, forward, backward, undirected), hence symmetric, zero iff arcs and edges coincide, and satisfies the triangle inequality.", "quantifier": "all pairs and triples of finite PDAGs", "why_tests_cant": "triangle inequality over all triples; the code looks asymmetric", "anchors": ["graphical_models/classes/dags/pdag.py:PDAG.shd", "graphical_models/classes/dags/pdag.py:PDAG.shd_skeleton"]}
{"id": "C29", "title": "DAG adjacency matrix round trip", "statement": "For a DAG on nodes 0..n-1, from_amat(to_amat()) has the same nodes and arcs; for arbitrary labels and any node_list that lists each node once, entry [a, b] of to_amat(node_list) is 1 iff (node_list[a], node_list[b]) is an arc and 0 otherwise.", "quantifier": "all finite DAGs, all node orderings", "why_tests_cant": "ranges over all graphs and permutations", "anchors": ["graphical_models/classes/dags/dag.py:DAG.to_amat", "graphical_models/classes/dags/dag.py:DAG.from_amat"]}
{"id": "C30", "title": "PDAG adjacency matrix round trip for both axes", "statement": "For a PDAG on nodes 0..n-1 whose pairs carry at most one kind of edge, from_amat(to_amat(source_axis=s), source_axis=s) has the same arcs and edges for s = 0 and for s = 1.", "quantifier": "all finite PDAGs, both axis conventions", "why_tests_cant": "ranges over all graphs; one axis convention is broken only for arcs pointing to smaller labels", "anchors": ["graphical_models/classes/dags/pdag.py:PDAG.to_amat", "graphical_models/classes/dags/pdag.py:PDAG.from_amat"]}
{"id": "C31", "title": "Ancestral graph adjacency matrix round trip", "statement": "For an ancestral graph on nodes 0..n-1, from_amat(to_amat()) equals the graph.", "quantifier": "all finite graphs accepted by the constructor", "why_tests_cant": "ranges over all mixed graphs", "anchors": ["graphical_models/classes/mags/ancestral_graph.py:AncestralGraph.to_amat", "graphical_models/classes/mags/ancestral_graph.py:AncestralGraph.from_amat"]}
{"id": "C32", "title": "Renaming nodes is an isomorphism", "statement": "If name_map is injective on the nodes, rename_nodes(name_map) succeeds on an acyclic graph and the result has exactly the renamed nodes and arcs, is acyclic, and answers dsep, ancestors and topological order questions as the renamed original.", "quantifier": "all finite DAGs and all injective maps", "why_tests_cant": "ranges over all graphs, maps and queries", "anchors": ["graphical_models/classes/dags/dag.py:DAG.rename_nodes"]}
{"id": "C33", "title": "Ancestral subgraphs preserve separation", "statement": "For node sets A, B, C inside S, dsep(A, B, C) is the same in the graph and in ancestral_subgraph(S).", "quantifier": "all finite DAGs, all S, A, B, C", "why_tests_cant": "relates answers on two graphs for all queries", "anchors": ["graphical_models/classes/dags/dag.py:DAG.ancestral_subgraph", "graphical_models/classes/dags/dag.py:DAG.induced_subgraph", "graphical_models/classes/dags/dag.py:DAG.dsep"]}
{"id": "C34", "title": "Separation equals undirected separation in the moral ancestral graph", "statement": "For disjoint A, B, C, dsep(A, B, C) is True iff C separates A from B in the undirected graph returned by moral_graph() of the ancestral subgraph of A, B, C.", "quantifier": "all finite DAGs, all disjoint A, B, C", "why_tests_cant": "equivalence of two graph-theoretic criteria over all graphs", "anchors": ["graphical_models/classes/dags/dag.py:DAG.moral_graph", "graphical_models/classes/dags/dag.py:DAG.ancestral_subgraph", "graphical_models/classes/dags/dag.py:DAG.dsep"]}
{"id": "C35", "title": "is_imap decides containment of the separation models", "statement": "For DAGs g, h on the same nodes, g.is_imap(h) is True iff every separation statement dsep(A, B, C) that is True in g (A, B, C disjoint) is True in h.", "quantifier": "all pairs of finite DAGs, all disjoint triples of node sets", "why_tests_cant": "a check of n local statements is claimed to imply exponentially many; unit tests cannot enumerate them", "anchors": ["graphical_models/classes/dags/dag.py:DAG.is_imap", "graphical_models/classes/dags/dag.py:DAG.local_markov_statements", "graphical_models/classes/dags/dag.py:DAG.dsep"]}
{"id": "C36", "title": "is_minimal_imap decides minimality", "statement": "If g is an I-map of h (same nodes), g.is_minimal_imap(h) is True iff no DAG obtained by removing an arc of g is an I-map of h; with certify=True a False answer carries a removable arc.", "quantifier": "all pairs of finite DAGs, all iteration orders", "why_tests_cant": "minimality quantifies over subgraphs and separation statements", "anchors": ["graphical_models/classes/dags/dag.py:DAG.is_minimal_imap", "graphical_models/classes/dags/dag.py:DAG.is_imap"]}
{"id": "C37", "title": "msep decides m-separation", "statement": "For a graph accepted by the AncestralGraph constructor and A, B, C with A disjoint from C, msep(A, B, C) terminates and returns True iff no path from A to B is m-connecting given C; independent of pop order.", "quantifier": "all mixed graphs accepted by the constructor, all A, B, C, all pop orders", "why_tests_cant": "unbounded paths with three edge types; arbitrary pop order", "anchors": ["graphical_models/classes/mags/ancestral_graph.py:AncestralGraph.msep", "graphical_models/classes/mags/ancestral_graph.py:AncestralGraph.__init__"]}
{"id": "C38", "title": "msep on a DAG viewed as ancestral graph equals dsep", "statement": "AncestralGraph(nodes=d.nodes, directed=d.arcs).msep(A, B, C) == d.dsep(A, B, C).", "quantifier": "all finite DAGs, all A, B, C, all pop orders", "why_tests_cant": "agreement of two algorithms on every input", "anchors": ["graphical_models/classes/mags/ancestral_graph.py:AncestralGraph.msep", "graphical_models/classes/dags/dag.py:DAG.dsep"]}
{"id": "C39", "title": "msep_from_given returns exactly the m-separated nodes", "statement": "For an ancestral graph and A disjoint from C, msep_from_given(A, C) terminates and returns exactly the nodes x outside A and C with msep(A, x, C) == True.", "quantifier": "all ancestral graphs, all A, C, all iteration orders", "why_tests_cant": "two different algorithms must agree on every graph", "anchors": ["graphical_models/classes/mags/ancestral_graph.py:AncestralGraph.msep_from_given", "graphical_models/classes/mags/ancestral_graph.py:AncestralGraph.msep"]}
{"id": "C40", "title": "The public mutators keep an ancestral graph ancestral", "statement": "If a graph is ancestral (no directed cycle, no bidirected edge between a node and its ancestor, no undirected edge at a node with an arrowhead), then it is ancestral after add_directed, add_bidirected or add_undirected, whether or not the call raises.", "quantifier": "all ancestral graphs, all pairs of nodes, all iteration orders", "why_tests_cant": "detection of almost directed cycles depends on DFS order", "anchors": ["graphical_models/classes/mags/ancestral_graph.py:AncestralGraph.add_directed", "graphical_models/classes/mags/ancestral_graph.py:AncestralGraph.add_bidirected", "graphical_models/classes/mags/ancestral_graph.py:AncestralGraph.add_undirected", "graphical_models/classes/mags/ancestral_graph.py:AncestralGraph._check_ancestral"]}
{"id": "C41", "title": "AncestralGraph views agree with the edge sets and no pair carries two edges", "statement": "After the constructor and any sequence of add_*/remove_* calls on distinct nodes, parents/children/spouses/neighbors describe exactly the directed, bidirected and undirected edges, every pair of nodes carries at most one edge, and no node with an undirected edge has a parent or spouse.", "quantifier": "all finite histories of mutator calls", "why_tests_cant": "invariant over all histories including exception paths", "anchors": ["graphical_models/classes/mags/ancestral_graph.py:AncestralGraph._add_directed", "graphical_models/classes/mags/ancestral_graph.py:AncestralGraph._add_bidirected", "graphical_models/classes/mags/ancestral_graph.py:AncestralGraph._add_undirected", "graphical_models/classes/mags/ancestral_graph.py:AncestralGraph.remove_directed", "graphical_models/classes/mags/ancestral_graph.py:AncestralGraph.remove_bidirected", "graphical_models/classes/mags/ancestral_graph.py:AncestralGraph.remove_undirected"]}
{"id": "C42", "title": "c_components is the partition into districts", "statement": "c_components() returns disjoint sets covering all nodes; two nodes are in the same set iff they are joined by a path of bidirected edges; district_of(v) is the one that contains v.", "quantifier": "all mixed graphs, all iteration and pop orders", "why_tests_cant": "recursion shares a visited set across components; depends on order", "anchors": ["graphical_models/classes/mags/ancestral_graph.py:AncestralGraph.c_components", "graphical_models/classes/mags/ancestral_graph.py:AncestralGraph.district_of", "graphical_models/classes/mags/ancestral_graph.py:AncestralGraph._bidirected_reachable"]}
{"id": "C43", "title": "Pairwise Markov statements condition on other nodes only and hold", "statement": "In a maximal ancestral graph every statement (i, j, S) from pairwise_markov_statements() has i, j not in S and msep(i, j, S) is True.", "quantifier": "all maximal ancestral graphs, all non-adjacent pairs", "why_tests_cant": "operator precedence makes the statement depend on iteration order of the node set", "anchors": ["graphical_models/classes/mags/ancestral_graph.py:AncestralGraph.pairwise_markov_statements", "graphical_models/classes/mags/ancestral_graph.py:AncestralGraph.msep"]}
{"id": "C44", "title": "Generators only return acyclic graphs on the requested nodes", "statement": "directed_erdos(n, ...) and directed_random_graph(n, model) return, for every outcome of the random draws, an acyclic graph on nodes 0..n-1 whose skeleton is (a renaming of) the sampled edges, and never raise CycleError.", "quantifier": "all n, all random outcomes (coin flips, permutations, undirected graphs)", "why_tests_cant": "random outcomes cannot be enumerated", "anchors": ["graphical_models/rand/graphs.py:directed_erdos", "graphical_models/rand/graphs.py:directed_random_graph"]}
{"id": "C45", "title": "to_complete_pdag only adds forced orientations, keeps the skeleton and terminates", "statement": "For every PDAG, to_complete_pdag() terminates, keeps the skeleton and all arcs; and every arc it adds is contained in every DAG that is a consistent extension of the PDAG.", "quantifier": "all finite PDAGs with a consistent extension, all iteration orders", "why_tests_cant": "soundness quantifies over all extensions; the loop uses flags updated in place", "anchors": ["graphical_models/classes/dags/pdag.py:PDAG.to_complete_pdag"]}
{"id": "C46", "title": "interventional_cpdag directs exactly the arcs forced by the interventions", "statement": "d.interventional_cpdag(interventions, d.cpdag()) terminates; the result has the nodes and the skeleton of d; i -> j is directed iff every DAG that is Markov equivalent to d and agrees with d on the pairs with exactly one endpoint in an intervention target has the arc i -> j, and i - j is undirected iff such DAGs with both orientations exist.", "quantifier": "all finite DAGs, all lists of intervention targets, all iteration orders", "why_tests_cant": "quantifies over the interventional equivalence class", "anchors": ["graphical_models/classes/dags/dag.py:DAG.interventional_cpdag", "graphical_models/classes/dags/pdag.py:PDAG.remove_unprotected_orientations"]}
{"id": "C47", "title": "Covered edges form a forest, so atomic_verification never trips its assertion", "statement": "On an acyclic graph the undirected graph of compute_covered_edges() has no cycle (each node is the target of at most one covered arc), so the bipartiteness assertion in the vertex cover computation holds.", "quantifier": "all finite DAGs", "why_tests_cant": "structural theorem about every DAG", "anchors": ["graphical_models/classes/dags/dag.py:DAG.compute_covered_edges", "graphical_models/classes/dags/dag.py:DAG.atomic_verification", "graphical_models/utils/core_utils.py:compute_minimum_vertex_cover"]}
{"id": "C48", "title": "The standard imset is invariant under Markov equivalence", "statement": "Markov equivalent DAGs have equal get_standard_imset() (as maps from node sets to counts).", "quantifier": "all pairs of Markov equivalent DAGs", "why_tests_cant": "ranges over equivalence classes", "anchors": ["graphical_models/classes/dags/dag.py:DAG.get_standard_imset"]}
{"id": "C49", "title": "UndirectedGraph degrees and neighbors stay consistent", "statement": "After the constructor and any sequence of add_edge, delete_edge, delete_node calls on distinct endpoints, has_edge(i, j) iff j in neighbors_of(i) iff i in neighbors_of(j), and degrees equal the number of neighbors; and every edge endpoint is a node of the graph.", "quantifier": "all finite histories", "why_tests_cant": "invariant over all histories", "anchors": ["graphical_models/classes/undirected/undirected_graph.py:UndirectedGraph.__init__", "graphical_models/classes/undirected/undirected_graph.py:UndirectedGraph.add_edge", "graphical_models/classes/undirected/undirected_graph.py:UndirectedGraph.delete_edge", "graphical_models/classes/undirected/undirected_graph.py:UndirectedGraph.delete_node"]}
{"id": "C50", "title": "GaussDAG precision is the inverse of its covariance", "statement": "For every acyclic weighted graph with nonzero variances, the precision and covariance matrices computed from the weights are inverse to each other, and covariance is the covariance of the linear structural equation model that sample() simulates (exact arithmetic).", "quantifier": "all acyclic weight matrices and nonzero variances over a field", "why_tests_cant": "algebraic identity over all matrices", "anchors": ["graphical_models/classes/dags/gaussdag.py:GaussDAG._ensure_precision", "graphical_models/classes/dags/gaussdag.py:GaussDAG._ensure_covariance", "graphical_models/classes/dags/gaussdag.py:GaussDAG.sample"]}
{"id": "C51", "title": "GaussDAG covariance and precision reflect the current weights", "statement": "After set_arc_weight or set_node_variance, covariance and precision are those of the current weights and variances.", "quantifier": "all histories of reads and weight changes", "why_tests_cant": "depends on the interleaving of reads and updates (cached matrices)", "anchors": ["graphical_models/classes/dags/gaussdag.py:GaussDAG.set_arc_weight", "graphical_models/classes/dags/gaussdag.py:GaussDAG._ensure_covariance", "graphical_models/classes/dags/gaussdag.py:GaussDAG._ensure_precision"]}
{"id": "C52", "title": "GaussDAG.means solves the mean equations", "statement": "means() returns the vector m with m[i] = bias[i] + sum over parents p of weight[p, i] * m[p].", "quantifier": "all acyclic weighted graphs on nodes 0..n-1", "why_tests_cant": "fails only when some arc points to a smaller label", "anchors": ["graphical_models/classes/dags/gaussdag.py:GaussDAG.means"]}
{"id": "C53", "title": "Arcs of a GaussDAG are exactly the nonzero weights", "statement": "After any sequence of set_arc_weight calls from a consistent state (raising or not), (i, j) is an arc iff weight_mat[i, j] != 0 and the graph is acyclic.", "quantifier": "all histories of weight changes", "why_tests_cant": "exception path in the middle of the update", "anchors": ["graphical_models/classes/dags/gaussdag.py:GaussDAG.set_arc_weight"]}
{"id": "C54", "title": "powerset enumerates every subset once", "statement": "powerset(s, r_min, r_max) yields each subset of s of size between r_min and r_max exactly once; powerset_predicate(s, p) yields exactly the subsets satisfying p when p is closed under taking subsets.", "quantifier": "all finite sets and all downward closed predicates", "why_tests_cant": "exponentially many subsets for each of infinitely many sets", "anchors": ["graphical_models/utils/core_utils.py:powerset", "graphical_models/utils/core_utils.py:powerset_predicate"]}
{"id": "C55", "title": "possible_parents lists exactly the undirected cliques around a node", "statement": "possible_parents(v) yields each set of undirected neighbors of v that is pairwise connected by undirected edges exactly once.", "quantifier": "all finite PDAGs and nodes", "why_tests_cant": "depends on the early stop by size being sound for every graph", "anchors": ["graphical_models/classes/dags/pdag.py:PDAG.possible_parents", "graphical_models/classes/dags/pdag.py:PDAG.is_edge_clique", "graphical_models/utils/core_utils.py:powerset_predicate"]}
{"id": "C56", "title": "Chain components partition the non-isolated undirected part", "statement": "chain_components() returns induced subgraphs on disjoint node sets; two nodes with undirected edges are in the same component iff connected by undirected edges.", "quantifier": "all finite PDAGs, all iteration and pop orders", "why_tests_cant": "recursion shares the visited set across components", "anchors": ["graphical_models/classes/dags/pdag.py:PDAG.chain_components", "graphical_models/classes/dags/pdag.py:PDAG._undirected_reachable"]}
{"id": "C57", "title": "SampleDAG and CamDAG simulate the structural equations", "statement": "sample() assigns to every node the value of its conditional applied to the sampled values of its parents, each node being computed after all its parents; for fixed noise the result does not depend on the topological order used.", "quantifier": "all finite DAGs, all families of node functions, all topological orders", "why_tests_cant": "order independence over all linear extensions", "anchors": ["graphical_models/classes/dags/sample_dag.py:SampleDAG.sample", "graphical_models/classes/dags/camdag.py:CamDAG.sample", "graphical_models/classes/dags/gaussdag.py:GaussDAG.sample"]}
{"id": "C58", "title": "Sources and sinks exist and upstream_most is nonempty", "statement": "A nonempty acyclic graph has at least one source and one sink, sources()/sinks() are exactly the nodes without parents/children, and upstream_most(S) of a nonempty node set is nonempty and consists of the members of S with no ancestor in S.", "quantifier": "all finite DAGs, all node sets", "why_tests_cant": "existence statements over all graphs", "anchors": ["graphical_models/classes/dags/dag.py:DAG.sources", "graphical_models/classes/dags/dag.py:DAG.sinks", "graphical_models/classes/dags/dag.py:DAG.upstream_most"]}
{"id": "C59", "title": "mec_size is the size of the equivalence class", "statement": "For the CPDAG of a DAG, mec_size() equals the number of DAGs in the Markov equivalence class.", "quantifier": "all finite DAGs", "why_tests_cant": "closed formulas are used for special edge counts; all graphs with these counts must be covered", "anchors": ["graphical_models/classes/dags/pdag.py:PDAG.mec_size", "graphical_models/classes/dags/pdag.py:PDAG.all_dags"]}
{"id": "C60", "title": "Confusion matrix counts partition the node pairs", "statement": "confusion_matrix_skeleton: true positives, false positives, false negatives and true negatives partition the node pairs and have the reported sizes. confusion_matrix: num_false_positives counts the adjacencies of the other graph that are absent from this graph.", "quantifier": "all pairs of finite DAGs on the same nodes", "why_tests_cant": "all pairs of graphs; the wrong operand is visible only for particular pairs", "anchors": ["graphical_models/classes/dags/dag.py:DAG.confusion_matrix_skeleton", "graphical_models/classes/dags/dag.py:DAG.confusion_matrix"]}
{"id": "C61", "title": "edges_between returns the arcs between two nodes", "statement": "edges_between(s, t) returns exactly the arcs of the graph both of whose endpoints lie on directed paths from s to t (those returned by nodes_between), independently of set iteration order.", "quantifier": "all finite DAGs, all pairs, all iteration orders", "why_tests_cant": "depends on hash iteration order", "anchors": ["graphical_models/classes/dags/dag.py:DAG.edges_between", "graphical_models/classes/dags/dag.py:DAG.nodes_between"]}
{"id": "C62", "title": "resolved_sinks terminates and returns a descendant-closed set with equal parents", "statement": "resolved_sinks(other) terminates; every node in the result has the same parents in both graphs, the result is closed under children in both graphs, and it is the largest such set for acyclic graphs.", "quantifier": "all pairs of finite DAGs", "why_tests_cant": "fixpoint over all graph pairs", "anchors": ["graphical_models/classes/dags/dag.py:DAG.resolved_sinks", "graphical_models/classes/dags/dag.py:DAG._is_resolved_sink"]}
{"id": "C63", "title": "Every step of apply_edge_operation moves closer and stays acyclic", "statement": "If imap is an I-map of g (same nodes) and g != imap, apply_edge_operation(imap) raises nothing and returns an acyclic graph that differs from g by one added arc or one covered reversal and has a smaller chickering_distance to imap.", "quantifier": "all pairs of finite DAGs with the I-map property, all random choices", "why_tests_cant": "random choices and unbounded graphs", "anchors": ["graphical_models/classes/dags/dag.py:DAG.apply_edge_operation", "graphical_models/classes/dags/dag.py:DAG.chickering_sequence"]}
{"id": "C64", "title": "marginal_mag represents the separations among observed nodes", "statement": "For a DAG d and latent set L, msep(A, B, C) in d.marginal_mag(L) equals dsep(A, B, C) in d for all disjoint sets A, B, C of observed nodes.", "quantifier": "all finite DAGs, latent sets and observed triples", "why_tests_cant": "quantifies over all separation statements", "anchors": ["graphical_models/classes/dags/dag.py:DAG.marginal_mag"]}
{"id": "C65", "title": "markov_equivalent with interventions decides interventional Markov equivalence", "statement": "For acyclic graphs, markov_equivalent(other, interventions) terminates and is True iff the graphs have the same nodes, skeleton and v-structures and, for every intervention target, deleting the arcs into the target leaves the same skeleton in both.", "quantifier": "all pairs of finite DAGs, all lists of intervention targets, all iteration orders", "why_tests_cant": "ranges over all pairs of graphs and all target lists; the answer is computed by comparing the results of two flag propagations", "anchors": ["graphical_models/classes/dags/dag.py:DAG.markov_equivalent", "graphical_models/classes/dags/dag.py:DAG.interventional_cpdag", "graphical_models/classes/dags/pdag.py:PDAG.__eq__"]}
{"id": "C66", "title": "cpdag_new agrees with cpdag", "statement": "For every DAG, cpdag_new() terminates without raising and returns a PDAG equal to cpdag() (same nodes, arcs and edges), for all iteration orders of both computations.", "quantifier": "all finite DAGs, all iteration orders", "why_tests_cant": "two different fixed point computations have to agree on every graph", "anchors": ["graphical_models/classes/dags/dag.py:DAG.cpdag_new", "graphical_models/classes/dags/dag.py:DAG.cpdag", "graphical_models/classes/dags/pdag.py:PDAG.to_complete_pdag"]}
{"id": "C67", "title": "PDAG.interventional_cpdag shows the orientations learned from atomic interventions", "statement": "For a DAG d with CPDAG c and a set of nodes I, c.interventional_cpdag(d, I) terminates without raising; an arc is directed in it iff it belongs to every DAG Markov equivalent to d that agrees with d on all arcs at nodes of I, and undirected iff such DAGs exist with either orientation.", "quantifier": "all finite DAGs, all sets of intervened nodes, all iteration orders", "why_tests_cant": "quantifies over the equivalence class, which is exponential in size", "anchors": ["graphical_models/classes/dags/pdag.py:PDAG.interventional_cpdag", "graphical_models/classes/dags/pdag.py:PDAG.to_complete_pdag"]}
{"id": "C68", "title": "The consistent extensions of cpdag() are exactly the Markov equivalence class", "statement": "For every DAG d, a directed graph is a consistent extension of d.cpdag() (acyclic, same skeleton, contains the directed arcs, no further v-structures) iff it is acyclic with the same skeleton and v-structures as d.", "quantifier": "all finite DAGs, all iteration orders", "why_tests_cant": "relates the output to all graphs of the class", "anchors": ["graphical_models/classes/dags/dag.py:DAG.cpdag"]}
{"id": "C69", "title": "Extending the CPDAG and completing it again is the identity", "statement": "For every DAG d, d.cpdag().to_dag() terminates without raising, is acyclic and Markov equivalent to d, and its cpdag() has the arcs and edges of d.cpdag(), for all iteration orders and sink choices.", "quantifier": "all finite DAGs, all iteration orders and sink choices", "why_tests_cant": "composition of three order dependent computations", "anchors": ["graphical_models/classes/dags/dag.py:DAG.cpdag", "graphical_models/classes/dags/pdag.py:PDAG.to_dag"]}
{"id": "C70", "title": "UndirectedGraph operations have exactly the expected effect", "statement": "The constructor keeps exactly the given edges with distinct endpoints and adds their endpoints to the nodes; add_edge(i, j) with i != j adds exactly that edge; delete_edge removes exactly the edge, or raises KeyError and changes nothing if it is absent; delete_node removes exactly the node and its edges, or raises KeyError and changes nothing if it is absent.", "quantifier": "all consistent UndirectedGraph objects, all arguments, all iteration orders", "why_tests_cant": "all object states and arguments, including the error branches", "anchors": ["graphical_models/classes/undirected/undirected_graph.py:UndirectedGraph.__init__", "graphical_models/classes/undirected/undirected_graph.py:UndirectedGraph.add_edge", "graphical_models/classes/undirected/undirected_graph.py:UndirectedGraph.delete_edge", "graphical_models/classes/undirected/undirected_graph.py:UndirectedGraph.delete_node"]}
{"id": "C71", "title": "PDAG DataFrame round trip for both axes and arbitrary labels", "statement": "For a PDAG whose pairs carry at most one kind of edge and a list with every node once, PDAG.from_df(p.to_df(node_list, source_axis=s), source_axis=s) has the same nodes, arcs and edges for s = 0 and for s = 1.", "quantifier": "all such PDAGs over ordered labels, all node lists, both axes", "why_tests_cant": "all graphs and all orderings of the labels", "anchors": ["graphical_models/classes/dags/pdag.py:PDAG.from_df", "graphical_models/classes/dags/pdag.py:PDAG.to_df"]}
{"id": "C72", "title": "AncestralGraph copies and induced subgraphs are exact", "statement": "copy() returns an equal graph without raising; induced_subgraph(S) does not raise and has the nodes S and exactly the directed, bidirected and undirected edges with both ends in S; it is ancestral if the graph is.", "quantifier": "all graphs reachable by constructor and mutator calls, all node sets, all iteration orders", "why_tests_cant": "the constructor replays the edges in set order and may raise on any of them", "anchors": ["graphical_models/classes/mags/ancestral_graph.py:AncestralGraph.copy", "graphical_models/classes/mags/ancestral_graph.py:AncestralGraph.induced_subgraph"]}
{"id": "C73", "title": "AncestralGraph reachability queries respect exclude_arcs", "statement": "ancestors_of(v, exclude_arcs=X) and descendants_of(v, exclude_arcs=X) return exactly the nodes with a directed path to, respectively from, v that uses no arc of X; for a set of nodes they return the union.", "quantifier": "all reachable graphs, all nodes and node sets, all sets of excluded arcs, all iteration orders", "why_tests_cant": "all graphs and all sets of excluded arcs", "anchors": ["graphical_models/classes/mags/ancestral_graph.py:AncestralGraph.ancestors_of", "graphical_models/classes/mags/ancestral_graph.py:AncestralGraph.descendants_of"]}
{"id": "C74", "title": "AncestralGraph topological order and ancestor dictionaries", "statement": "On an ancestral graph topological_sort() returns a topological order of the directed edges, and ancestor_dict() and descendant_dict() map each node to exactly its proper ancestors and descendants, without raising.", "quantifier": "all ancestral graphs, all iteration orders", "why_tests_cant": "the dictionaries are filled in one pass along an order dependent sort", "anchors": ["graphical_models/classes/mags/ancestral_graph.py:AncestralGraph.topological_sort", "graphical_models/classes/mags/ancestral_graph.py:AncestralGraph.ancestor_dict", "graphical_models/classes/mags/ancestral_graph.py:AncestralGraph.descendant_dict"]}
{"id": "C75", "title": "to_maximal and is_maximal of ancestral graphs", "statement": "On an ancestral graph to_maximal() terminates without raising and adds exactly the bidirected edges between non-adjacent nodes that no set m-separates; the result is ancestral and maximal and has the same m-separations; is_maximal() returns True iff every two non-adjacent nodes are m-separated by some set. With new=False the results are the same.", "quantifier": "all ancestral graphs, all iteration and pop orders", "why_tests_cant": "maximality quantifies over all conditioning sets and the code decides it by inducing paths", "anchors": ["graphical_models/classes/mags/ancestral_graph.py:AncestralGraph.to_maximal", "graphical_models/classes/mags/ancestral_graph.py:AncestralGraph.is_maximal", "graphical_models/classes/mags/ancestral_graph.py:AncestralGraph._reachable"]}
{"id": "C76", "title": "SampleDAG interventions replace the equations of the targets only", "statement": "sample_interventional(intervention) returns values that satisfy, for every targeted node, the interventional distribution (of the parents' values if soft, a constant draw if perfect), and for every other node its own conditional; nodes that are neither targets nor descendants of targets keep the value of sample() for the same noise.", "quantifier": "all finite DAGs, all families of node functions, all interventions, all topological orders", "why_tests_cant": "order independence over all linear extensions, all interventions", "anchors": ["graphical_models/classes/dags/sample_dag.py:SampleDAG.sample_interventional"]}
{"id": "C77", "title": "The GaussDAG constructor stores the given weights and rejects cycles", "statement": "GaussDAG(nodes, arcs) raises CycleError iff the arcs of nonzero weight contain a directed cycle; otherwise the weights are the given ones (zero elsewhere) and the arcs are the pairs with nonzero weight.", "quantifier": "all node lists without repetition and all weight dictionaries", "why_tests_cant": "all weight dictionaries; the check is lost in a chain of overridden methods", "anchors": ["graphical_models/classes/dags/gaussdag.py:GaussDAG.__init__", "graphical_models/classes/dags/gaussdag.py:GaussDAG.set_arc_weights", "graphical_models/classes/dags/gaussdag.py:GaussDAG.add_arcs_from"]}
{"id": "C78", "title": "GaussDAG.sample works for every node list", "statement": "For every node list (not only 0..n-1), sample() returns at the position of each node the weighted sum of its parents' values plus its noise.", "quantifier": "all sound GaussDAGs, all node lists, all topological orders", "why_tests_cant": "node labels are used as matrix columns, which only shows for permuted or non-consecutive labels", "anchors": ["graphical_models/classes/dags/gaussdag.py:GaussDAG.sample"]}
{"id": "C79", "title": "GaussDAG counterfactuals keep the noise of the nodes that are not intervened on", "statement": "deterministic_intervention_counterfactuals(samples, intervention) gives every intervened node its value, every other node the structural equation with the noise recovered from samples, and leaves nodes without an intervened ancestor unchanged.", "quantifier": "all acyclic weighted graphs on 0..n-1, all samples and interventions, all topological orders", "why_tests_cant": "all weights and interventions, exact arithmetic", "anchors": ["graphical_models/classes/dags/gaussdag.py:GaussDAG.deterministic_intervention_counterfactuals"]}
{"id": "C80", "title": "GaussDAG.direct_effects returns total effects", "statement": "direct_effects()[i, j] is the response of node j to a unit change of the noise of node i (minus one on the diagonal), i.e. 1 + direct_effects() is the inverse of 1 - weight_mat; it is zero if j is not a descendant of i.", "quantifier": "all sound GaussDAGs over a field", "why_tests_cant": "algebraic identity over all matrices", "anchors": ["graphical_models/classes/dags/gaussdag.py:GaussDAG.direct_effects"]}
{"id": "C81", "title": "directed_erdos_with_confounders returns an acyclic graph on all requested nodes", "statement": "directed_erdos_with_confounders(n, ..., num_confounders=k) returns, for every outcome of the draws, an acyclic graph on the n+k nodes 0..n+k-1 in which no arc joins two confounders.", "quantifier": "all n, k, all outcomes of the coins and all permutations", "why_tests_cant": "missing nodes only show for outcomes in which a node has no arcs", "anchors": ["graphical_models/rand/graphs.py:directed_erdos_with_confounders"]}
{"id": "C82", "title": "rand_weights returns a GaussDAG with the arcs of the given DAG", "statement": "rand_weights(dag) returns a GaussDAG with the nodes and arcs of dag whose weights are the drawn ones, if all drawn weights are nonzero.", "quantifier": "all finite DAGs and all drawn weights", "why_tests_cant": "all labels; the node list is rebuilt as 0..n-1", "anchors": ["graphical_models/rand/graphs.py:rand_weights"]}
{"id": "C83", "title": "marginal_mag returns the MAG: adjacency is inseparability, orientation is ancestry", "statement": "The graph d.marginal_mag(L) has the observed nodes, consistent views, no undirected edges, is ancestral and maximal; i and j are adjacent iff no set of other observed nodes d-separates them in d; the edge is i -> j iff i is an ancestor of j and bidirected iff neither is an ancestor of the other. marginal_mag(L, new=False) returns an equal graph.", "quantifier": "all finite DAGs, latent sets, iteration and pop orders", "why_tests_cant": "the criterion quantifies over all conditioning sets; graph grows while it is tested", "anchors": ["graphical_models/classes/dags/dag.py:DAG.marginal_mag"]}
{"id": "C84", "title": "marginal_mag with relabel returns a relabelled copy", "statement": "marginal_mag(L, relabel=f) with f injective on the observed nodes equals marginal_mag(L) with every node replaced by its label; relabel='default' numbers the observed nodes in increasing order with consecutive numbers.", "quantifier": "all finite DAGs, latent sets and injective relabellings", "why_tests_cant": "all graphs and labels", "anchors": ["graphical_models/classes/dags/dag.py:DAG.marginal_mag"]}
{"id": "C85", "title": "apply_edge_operation stays between the graph and its I-map", "statement": "If imap is an I-map of g (same nodes) and g != imap, then imap is an I-map of the graph returned by g.apply_edge_operation(imap), and that graph is an I-map of g.", "quantifier": "all pairs of finite DAGs with the I-map property, all random choices", "why_tests_cant": "I-map quantifies over all separations; this is Meek's conjecture, proved by Chickering", "anchors": ["graphical_models/classes/dags/dag.py:DAG.apply_edge_operation"]}
{"id": "C86", "title": "chickering_sequence terminates and returns a Chickering sequence", "statement": "If imap is an I-map of g (same nodes), g.chickering_sequence(imap) terminates without raising; the sequence starts at g and ends at imap, consecutive graphs differ by one added arc or one covered reversal, every graph in it is acyclic and an I-map of g, imap is an I-map of every graph in it, and the number of moves is at most g.chickering_distance(imap).", "quantifier": "all pairs of finite DAGs with the I-map property, all random choices", "why_tests_cant": "termination under arbitrary random choices, unbounded sequences", "anchors": ["graphical_models/classes/dags/dag.py:DAG.chickering_sequence", "graphical_models/classes/dags/dag.py:DAG.apply_edge_operation"]}
{"id": "C87", "title": "The move reported by apply_edge_operation describes the step", "statement": "The dictionary returned by apply_edge_operation describes the step: moves 4 and 7 add an arc into sink, move 8 adds an arc from a parent of sink to a child of sink, move 6 reverses a covered arc out of sink that imap has the other way round; a valid seed_sink is the sink picked.", "quantifier": "all pairs of finite DAGs with the I-map property, all random choices and seeds", "why_tests_cant": "random choices and unbounded graphs", "anchors": ["graphical_models/classes/dags/dag.py:DAG.apply_edge_operation"]}
{"id": "C88", "title": "What several interventions teach is the union of what each teaches", "statement": "Starting from an essential graph c of d (d.cpdag() or an interventional_cpdag of it), d.interventional_cpdag(iv + iv', c).arcs equals the union of d.interventional_cpdag(iv, c).arcs and d.interventional_cpdag(iv', c).arcs. The design functions of DAG rely on it when they add up the arcs oriented by single nodes.", "quantifier": "all finite DAGs, all lists of targets, all essential graphs obtained from the API, all iteration orders", "why_tests_cant": "a structural theorem about closure under the orientation rules; a counterexample would need specific chordal patterns", "anchors": ["graphical_models/classes/dags/dag.py:DAG.interventional_cpdag", "graphical_models/classes/dags/dag.py:DAG.optimal_fully_orienting_single_node_interventions"]}
{"id": "C89", "title": "optimal_fully_orienting_single_node_interventions returns a smallest fully orienting set", "statement": "d.optimal_fully_orienting_single_node_interventions(cpdag) returns a set of nodes of d such that intervening on each of them, on top of what cpdag stands for, leaves d as the only candidate; no set of nodes with fewer elements does so. In particular excluding the dominated nodes loses nothing, and if nothing is left to orient the empty set is returned.", "quantifier": "all finite DAGs, cpdag omitted, d.cpdag() or any interventional_cpdag built from it, all iteration orders", "why_tests_cant": "minimality quantifies over all subsets of nodes and all members of the interventional equivalence class", "anchors": ["graphical_models/classes/dags/dag.py:DAG.optimal_fully_orienting_single_node_interventions", "graphical_models/classes/dags/pdag.py:PDAG.dominated_nodes", "graphical_models/utils/core_utils.py:powerset"]}
{"id": "C90", "title": "atomic_verification returns a smallest verifying set", "statement": "d.atomic_verification(cpdag) does not trip its assertions and returns a set of nodes such that intervening on each of them, on top of what cpdag stands for, leaves d as the only candidate; no set with fewer nodes does so. The verifying sets are exactly the vertex covers of compute_covered_edges().", "quantifier": "all finite DAGs, cpdag omitted, d.cpdag() or any interventional_cpdag built from it, any choice of minimum vertex cover by networkx", "why_tests_cant": "a theorem relating vertex covers to all members of an equivalence class", "anchors": ["graphical_models/classes/dags/dag.py:DAG.atomic_verification", "graphical_models/classes/dags/dag.py:DAG.compute_covered_edges", "graphical_models/utils/core_utils.py:compute_minimum_vertex_cover"]}
{"id": "C91", "title": "greedy_optimal_single_node_intervention returns the requested number of best interventions", "statement": "d.greedy_optimal_single_node_intervention(cpdag, n) terminates without raising and returns n interventions and n graphs. The k-th graph is the essential graph for the earlier targets and the first k interventions. Each intervention is a node that directs as many arcs as any node could at that point; it is None only when no undirected edge is left.", "quantifier": "all finite DAGs, all n >= 0, cpdag omitted or an essential graph obtained from the API, all iteration orders", "why_tests_cant": "optimality over all nodes at every step, for all graphs; excluded dominated nodes must never matter", "anchors": ["graphical_models/classes/dags/dag.py:DAG.greedy_optimal_single_node_intervention", "graphical_models/classes/dags/pdag.py:PDAG.dominated_nodes"]}
{"id": "C92", "title": "greedy_optimal_single_node_intervention meets its documented (1 - 1/e) guarantee", "statement": "The n >= 1 interventions returned by d.greedy_optimal_single_node_intervention(cpdag, n) direct at least (1 - 1/e) times as many of the undirected edges of cpdag as any set of at most n single-node interventions.", "quantifier": "all finite DAGs, all n >= 1, all competing sets of nodes", "why_tests_cant": "an approximation bound against an optimum that tests cannot compute at scale", "anchors": ["graphical_models/classes/dags/dag.py:DAG.greedy_optimal_single_node_intervention"]}
{"id": "C93", "title": "greedy_optimal_fully_orienting_interventions terminates and meets its documented bound", "statement": "d.greedy_optimal_fully_orienting_interventions(cpdag) terminates without raising; the returned interventions are nodes of d and leave d as the only candidate; the last returned graph has no undirected edge; and their number is at most (1 + ln K) times that of any fully orienting set of nodes, where K is the number of undirected edges of cpdag.", "quantifier": "all finite DAGs, all essential graphs obtained from the API, all competing sets", "why_tests_cant": "termination for all graphs and an approximation bound", "anchors": ["graphical_models/classes/dags/dag.py:DAG.greedy_optimal_fully_orienting_interventions", "graphical_models/classes/dags/dag.py:DAG.greedy_optimal_single_node_intervention"]}
{"id": "C94", "title": "discriminating_paths and vstructures find exactly the discriminating paths and unshielded colliders", "statement": "On an ancestral graph g, g.discriminating_paths() terminates; its keys are exactly the discriminating paths of g (sequences of different nodes x, q1, ..., qk, b, c with k >= 1, x and c not adjacent, every qi a collider on the path and a parent of c, b and c adjacent) and the value is 'c' iff b is a collider on the path. g.vstructures() contains each unshielded collider exactly once.", "quantifier": "all ancestral graphs built through the API, all iteration orders", "why_tests_cant": "paths of any length; termination of the search", "anchors": ["graphical_models/classes/mags/ancestral_graph.py:AncestralGraph.discriminating_paths", "graphical_models/classes/mags/ancestral_graph.py:AncestralGraph.vstructures", "graphical_models/classes/mags/ancestral_graph.py:AncestralGraph.colliders"]}
{"id": "C95", "title": "markov_equivalent decides Markov equivalence of maximal ancestral graphs", "statement": "For maximal ancestral graphs g and h on the same nodes, g.markov_equivalent(h) terminates and returns True iff g and h have the same m-separations.", "quantifier": "all pairs of maximal ancestral graphs on the same nodes, all iteration orders", "why_tests_cant": "equality of all m-separations; the theorem of Spirtes and Richardson for discriminating paths of any length", "anchors": ["graphical_models/classes/mags/ancestral_graph.py:AncestralGraph.markov_equivalent", "graphical_models/classes/mags/ancestral_graph.py:AncestralGraph.discriminating_paths"]}
{"id": "C96", "title": "markov_equivalent decides Markov equivalence of all ancestral graphs", "statement": "For any two ancestral graphs g and h on the same nodes, maximal or not, g.markov_equivalent(h) returns True iff g and h have the same m-separations.", "quantifier": "all pairs of ancestral graphs on the same nodes", "why_tests_cant": "non-maximal graphs are rare in tests", "anchors": ["graphical_models/classes/mags/ancestral_graph.py:AncestralGraph.markov_equivalent"]}
{"id": "C97", "title": "legitimate_mark_changes returns exactly the single mark changes that stay in the Markov equivalence class", "statement": "On a directed maximal ancestral graph g, g.legitimate_mark_changes() terminates without raising. The first returned set consists of the arcs i -> j for which replacing i -> j by i <-> j gives a maximal ancestral graph with the same m-separations as g; the second consists of the pairs (i, j) with i <-> j in g for which replacing i <-> j by i -> j does.", "quantifier": "all directed maximal ancestral graphs, all iteration orders", "why_tests_cant": "m-separations and discriminating paths of all lengths; the lemma of Zhang and Spirtes", "anchors": ["graphical_models/classes/mags/ancestral_graph.py:AncestralGraph.legitimate_mark_changes", "graphical_models/classes/mags/ancestral_graph.py:AncestralGraph.discriminating_paths"]}
{"id": "C98", "title": "legitimate_mark_changes(strict=False) returns exactly the mark changes that keep the graph ancestral with the same v-structures", "statement": "On a directed ancestral graph g, g.legitimate_mark_changes(strict=False) terminates without raising and returns exactly the single mark changes (arc to bidirected edge, bidirected edge to arc) that give an ancestral graph with the same unshielded colliders. The result with strict=True is contained in it.", "quantifier": "all directed ancestral graphs, all iteration orders", "why_tests_cant": "all graphs; ancestrality of the changed graph is a statement about paths of any length", "anchors": ["graphical_models/classes/mags/ancestral_graph.py:AncestralGraph.legitimate_mark_changes"]}
{"id": "C99", "title": "get_all_mec returns exactly the Markov equivalence class", "statement": "On a directed maximal ancestral graph g, g.get_all_mec() terminates without raising. Its first element is g, and the graphs in the returned list are exactly the directed maximal ancestral graphs on the same nodes that have the same m-separations as g.", "quantifier": "all directed maximal ancestral graphs, all iteration orders", "why_tests_cant": "termination of a search, and completeness: every equivalent graph must be reachable by legitimate mark changes (theorem of Zhang and Spirtes)", "anchors": ["graphical_models/classes/mags/ancestral_graph.py:AncestralGraph.get_all_mec", "graphical_models/classes/mags/ancestral_graph.py:AncestralGraph.legitimate_mark_changes"]}
{"id": "C100", "title": "get_all_mec lists each graph once", "statement": "The list returned by get_all_mec() on a directed maximal ancestral graph has no repeated element.", "quantifier": "all directed maximal ancestral graphs, all iteration orders", "why_tests_cant": "a duplicate only shows when a graph is discovered twice before it is visited", "anchors": ["graphical_models/classes/mags/ancestral_graph.py:AncestralGraph.get_all_mec"]}
{"id": "C101", "title": "discriminating_triples returns exactly the inseparable triples", "statement": "On a maximal ancestral graph g, g.discriminating_triples() terminates without raising; the result consists exactly of the sets of three nodes, at least one pair of them adjacent and at least one pair not adjacent, such that no two of them are m-separated by a set that contains the third.", "quantifier": "all maximal ancestral graphs, all iteration orders", "why_tests_cant": "m-separation by all sets, districts and discriminating paths of any length", "anchors": ["graphical_models/classes/mags/ancestral_graph.py:AncestralGraph.discriminating_triples", "graphical_models/classes/mags/ancestral_graph.py:AncestralGraph._tail_of", "graphical_models/classes/mags/ancestral_graph.py:AncestralGraph.district_of"]}
{"id": "C102", "title": "fast_markov_equivalent decides Markov equivalence of maximal ancestral graphs", "statement": "For maximal ancestral graphs g and h on the same nodes, g.fast_markov_equivalent(h) terminates without raising and returns True iff g and h have the same m-separations; hence it always agrees with g.markov_equivalent(h).", "quantifier": "all pairs of maximal ancestral graphs on the same nodes, all iteration orders", "why_tests_cant": "equality of all m-separations; the theorem of Hu and Evans", "anchors": ["graphical_models/classes/mags/ancestral_graph.py:AncestralGraph.fast_markov_equivalent", "graphical_models/classes/mags/ancestral_graph.py:AncestralGraph.discriminating_triples"]}
{"id": "C103", "title": "is_imap of ancestral graphs decides inclusion of all separations", "statement": "For an ancestral graph g without undirected edges, g.is_imap(h) raises if g is not maximal. Otherwise it is True iff every separation msep affirms in g (for disjoint sets of nodes) is affirmed in h. With certify=True the answer False comes with a statement (i, j, S) that msep affirms in g and denies in h.", "quantifier": "all directed ancestral graphs g, all ancestral graphs h, all iteration orders", "why_tests_cant": "separations of all sets; that the pairwise statements imply all others is a theorem about mixed graphs (pairwise and global Markov property)", "anchors": ["graphical_models/classes/mags/ancestral_graph.py:AncestralGraph.is_imap", "graphical_models/classes/mags/ancestral_graph.py:AncestralGraph.pairwise_markov_statements", "graphical_models/classes/mags/ancestral_graph.py:AncestralGraph.msep", "graphical_models/classes/mags/ancestral_graph.py:AncestralGraph.is_maximal"]}
{"id": "C104", "title": "A maximal ancestral graph is an I-map of itself", "statement": "For every maximal ancestral graph g, with or without undirected edges, g.is_imap(g) is True.", "quantifier": "all maximal ancestral graphs, all iteration orders", "why_tests_cant": "separations of all pairs in all graphs", "anchors": ["graphical_models/classes/mags/ancestral_graph.py:AncestralGraph.is_imap", "graphical_models/classes/mags/ancestral_graph.py:AncestralGraph.pairwise_markov_statements"]}
{"id": "C105", "title": "is_minimal_imap of ancestral graphs with certificate", "statement": "For a maximal ancestral graph g without undirected edges, g.is_minimal_imap(h, certify=True) returns a pair. Its first component is True iff g is an I-map of h and no maximal graph with fewer of the directed and bidirected edges of g is an I-map of h. A certificate (i, j) is an edge of g whose removal alone leaves a maximal I-map of h.", "quantifier": "all directed maximal ancestral graphs g, all ancestral graphs h, all iteration orders and random orders of the edges", "why_tests_cant": "quantifies over all subsets of edges, while the code removes single edges only", "anchors": ["graphical_models/classes/mags/ancestral_graph.py:AncestralGraph.is_minimal_imap", "graphical_models/classes/mags/ancestral_graph.py:AncestralGraph.is_imap", "graphical_models/classes/mags/ancestral_graph.py:AncestralGraph.is_maximal"]}
{"id": "C106", "title": "is_minimal_imap of ancestral graphs without certificate is a truth value", "statement": "For a maximal ancestral graph g without undirected edges, g.is_minimal_imap(h) used as a condition is true iff g is a minimal I-map of h.", "quantifier": "all directed maximal ancestral graphs g, all ancestral graphs h, all iteration orders", "why_tests_cant": "the branch for graphs that are no I-maps is rarely tested through truthiness", "anchors": ["graphical_models/classes/mags/ancestral_graph.py:AncestralGraph.is_minimal_imap"]}
{"id": "C107", "title": "marginal_precision is the inverse of the marginal covariance", "statement": "For a GaussDAG on nodes 0..n-1 with positive variances whose cached matrices are current, marginal_precision(nodes) for a list of distinct nodes raises nothing and is the inverse of covariance[nodes, nodes] (exact arithmetic).", "quantifier": "all acyclic weights, positive variances, lists of distinct nodes, iteration orders", "why_tests_cant": "identity between matrices of all sizes (Schur complement)", "anchors": ["graphical_models/classes/dags/gaussdag.py:GaussDAG.marginal_precision", "graphical_models/classes/dags/gaussdag.py:GaussDAG._ensure_precision", "graphical_models/classes/dags/gaussdag.py:GaussDAG._ensure_covariance"]}
{"id": "C108", "title": "partial_correlation is the correlation of regression residuals", "statement": "For a GaussDAG on nodes 0..n-1 with positive variances whose cached matrices are current, partial_correlation(i, j, C) with i, j distinct and not in C raises nothing. It is the one number that is the correlation, with respect to covariance, of what is left of i and j after regression on C (exact arithmetic).", "quantifier": "all acyclic weights, positive variances, pairs of nodes, conditioning sets, iteration orders", "why_tests_cant": "identity over the reals for matrices of all sizes", "anchors": ["graphical_models/classes/dags/gaussdag.py:GaussDAG.partial_correlation", "graphical_models/classes/dags/gaussdag.py:GaussDAG._ensure_correlation"]}
{"id": "C109", "title": "d-separated nodes have partial correlation zero", "statement": "Whenever dsep(i, j, C) is True for distinct nodes i, j not in C, partial_correlation(i, j, C) is 0 (exact arithmetic), for all weights and positive variances.", "quantifier": "all GaussDAGs on nodes 0..n-1 with positive variances, all i, j, C, all iteration orders", "why_tests_cant": "the global Markov property: relates a graph search to the inverse of a matrix, for all real weights", "anchors": ["graphical_models/classes/dags/gaussdag.py:GaussDAG.partial_correlation", "graphical_models/classes/dags/gaussdag.py:GaussDAG.dsep", "graphical_models/classes/dags/dag.py:DAG.dsep"]}
{"id": "C110", "title": "regression_coefficients is the best linear prediction", "statement": "regression_coefficients(targets, predictors, bias=False) raises nothing for distinct predictors. Each column holds the unique coefficients that minimise the variance, with respect to covariance, of the target minus the linear combination of the predictors. If the predictors contain all parents of the target and none of its descendants, they are the arc weights, and 0 for predictors that are no parents.", "quantifier": "all GaussDAGs on nodes 0..n-1 with positive variances and current caches, all targets and lists of distinct predictors", "why_tests_cant": "minimality over all real coefficients; holds for all supersets of the parents", "anchors": ["graphical_models/classes/dags/gaussdag.py:GaussDAG.regression_coefficients", "graphical_models/classes/dags/gaussdag.py:GaussDAG._ensure_covariance"]}
{"id": "C111", "title": "The bias of regression_coefficients is the bias of the target", "statement": "If the predictors contain all parents of the target and none of its descendants, the bias returned by regression_coefficients is the bias of the target; in general it makes the mean of the prediction errors zero.", "quantifier": "all GaussDAGs on nodes 0..n-1 with positive variances and current caches", "why_tests_cant": "fails only when some arc points to a smaller label and biases are not zero", "anchors": ["graphical_models/classes/dags/gaussdag.py:GaussDAG.regression_coefficients", "graphical_models/classes/dags/gaussdag.py:GaussDAG.means"]}
{"id": "C112", "title": "from_precision realises every positive definite matrix", "statement": "For every positive definite matrix P and every order of the nodes, from_precision(P, order) returns a GaussDAG whose arcs follow the order and whose precision is P (exact arithmetic). Symmetric matrices that are not positive definite and matrices that are not symmetric raise ValueError.", "quantifier": "all real symmetric matrices, all orders, with and without check", "why_tests_cant": "existence of the factorisation for all matrices; the cutoff 1e-8 only matters for small entries", "anchors": ["graphical_models/classes/dags/gaussdag.py:GaussDAG.from_precision", "graphical_models/classes/dags/gaussdag.py:GaussDAG.from_amat", "graphical_models/utils/core_utils.py:is_symmetric"]}
{"id": "C113", "title": "from_covariance recovers the weights", "statement": "from_covariance(g.covariance, order) for a topological order of g returns a GaussDAG with the arcs, weights and variances of g (exact arithmetic).", "quantifier": "all GaussDAGs on nodes 0..n-1 with positive variances and current caches, all topological orders", "why_tests_cant": "uniqueness of the factorisation; the cutoff 1e-8 only matters for small weights", "anchors": ["graphical_models/classes/dags/gaussdag.py:GaussDAG.from_covariance", "graphical_models/classes/dags/gaussdag.py:GaussDAG.from_precision"]}
{"id": "C114", "title": "from_amat stores the matrix for every node list", "statement": "from_amat(w, nodes) raises nothing for a list of distinct nodes; to_amat() of the result is w, and there is an arc from the i-th to the j-th node iff w[i, j] is not 0.", "quantifier": "all weight matrices and node lists", "why_tests_cant": "positions are used as labels, which agrees for the default node list", "anchors": ["graphical_models/classes/dags/gaussdag.py:GaussDAG.from_amat", "graphical_models/classes/dags/gaussdag.py:GaussDAG.to_amat"]}
{"id": "C115", "title": "logpdf is the log density of sample", "statement": "For a GaussDAG on nodes 0..n-1 with positive variances, logpdf(samples) raises nothing and is the log density of the distribution that sample() draws from (exact arithmetic).", "quantifier": "all acyclic weights, biases, positive variances, all points, all iteration orders", "why_tests_cant": "a density: identity of integrals over all measurable sets, for all parameters", "anchors": ["graphical_models/classes/dags/gaussdag.py:GaussDAG.logpdf", "graphical_models/classes/dags/gaussdag.py:GaussDAG.sample"]}
{"id": "C116", "title": "fast_logpdf is the log density of the chosen nodes", "statement": "For a GaussDAG on nodes 0..n-1 with positive variances and current caches, fast_logpdf(samples, nodes) for distinct nodes raises nothing and is the log density of these coordinates of sample(); log_probability(samples) is the log density of all of them (exact arithmetic).", "quantifier": "all acyclic weights, biases, positive variances, lists of distinct nodes, points and iteration orders; all eigendecompositions", "why_tests_cant": "a density of a marginal: identity of integrals over all measurable sets", "anchors": ["graphical_models/classes/dags/gaussdag.py:GaussDAG.fast_logpdf", "graphical_models/classes/dags/gaussdag.py:GaussDAG.log_probability", "graphical_models/classes/dags/gaussdag.py:GaussDAG.means", "graphical_models/classes/dags/gaussdag.py:GaussDAG.sample"]}
{"id": "C117", "title": "logpdf and log_probability agree", "statement": "If all biases are zero and the caches are current, log_probability(samples) and logpdf(samples) are equal (exact arithmetic).", "quantifier": "all acyclic weights, positive variances, points, iteration orders, eigendecompositions", "why_tests_cant": "one sums over nodes, the other uses the eigenvalues of the covariance matrix", "anchors": ["graphical_models/classes/dags/gaussdag.py:GaussDAG.logpdf", "graphical_models/classes/dags/gaussdag.py:GaussDAG.log_probability", "graphical_models/classes/dags/gaussdag.py:GaussDAG.fast_logpdf"]}
{"id": "C118", "title": "Interventional sampling replaces the equations of the targets only", "statement": "sample_interventional_perfect and sample_interventional raise nothing on nodes 0..n-1. Every node without intervention satisfies its structural equation with its own noise. A perfect intervention sets the value of its node to the drawn value. A soft intervention is given the values of the parents of its node and sets the value of the node. For perfect interventions this determines the samples.", "quantifier": "all acyclic weights, interventions, noise values and iteration orders", "why_tests_cant": "order independence over all topological orders", "anchors": ["graphical_models/classes/dags/gaussdag.py:GaussDAG.sample_interventional_perfect", "graphical_models/classes/dags/gaussdag.py:GaussDAG.sample_interventional"]}
{"id": "C119", "title": "logpdf with interventions is the log density of sample_interventional_perfect", "statement": "logpdf(samples, interventions, exclude_intervention_prob=False) is the log density of the distribution that sample_interventional_perfect(interventions) draws from; with exclude_intervention_prob=True the log densities of the interventions themselves are left out.", "quantifier": "all acyclic weights, biases, positive variances, all sets of perfect interventions with densities, all iteration orders", "why_tests_cant": "a density: identity of integrals over all measurable sets", "anchors": ["graphical_models/classes/dags/gaussdag.py:GaussDAG.logpdf", "graphical_models/classes/dags/gaussdag.py:GaussDAG.sample_interventional_perfect"]}
{"id": "C120", "title": "Shift interventions add the shift to the bias", "statement": "sample_interventional and sample_interventional_soft with shift interventions at a set of nodes draw from the distribution that sample() draws from after the shifts are added to the biases of these nodes.", "quantifier": "all acyclic weights, biases, variances, shifts and iteration orders", "why_tests_cant": "equality of distributions", "anchors": ["graphical_models/classes/dags/gaussdag.py:GaussDAG.sample_interventional", "graphical_models/classes/dags/gaussdag.py:GaussDAG.sample_interventional_soft", "graphical_models/classes/interventions/interventions.py:ShiftIntervention.sample"]}
{"id": "C121", "title": "fit_mle maximises the likelihood", "statement": "For a DAG d on nodes 0..n-1, GaussDAG.fit_mle(d, samples) raises nothing. It returns a GaussDAG whose arcs are among those of d, and no weights on the arcs of d with any biases and any positive variances give the samples a larger likelihood.", "quantifier": "all DAGs on nodes 0..n-1, all samples, all iteration orders, all least squares solutions", "why_tests_cant": "maximum over all real parameters", "anchors": ["graphical_models/classes/dags/gaussdag.py:GaussDAG.fit_mle", "graphical_models/utils/core_utils.py:get_extended_cov", "graphical_models/utils/core_utils.py:linear_regression_mle"]}
{"id": "C122", "title": "copy of a GaussDAG is equal to it", "statement": "g.copy() raises nothing and has the nodes, arcs, weights, biases and variances of g.", "quantifier": "all acyclic GaussDAGs with distinct nodes, all iteration orders of the arcs", "why_tests_cant": "fails for node lists that are not 0..n-1 in ascending order", "anchors": ["graphical_models/classes/dags/gaussdag.py:GaussDAG.copy", "graphical_models/classes/dags/gaussdag.py:GaussDAG.arc_weights", "graphical_models/classes/dags/gaussdag.py:GaussDAG.__init__"]}
{"id": "C123", "title": "interventional_dag is the graph that perfect interventions sample from", "statement": "For a GaussDAG on nodes 0..n-1 (a set that is iterated in ascending order), g.interventional_dag(interventions) raises nothing. Its biases and variances are those of the interventions, and those of g at the other nodes. For the same noise, sampling from it gives the same values as sample_interventional_perfect on g.", "quantifier": "all acyclic weights, interventions and noise values, all iteration orders of arcs and parents", "why_tests_cant": "all weights and interventions; order independence over all topological orders", "anchors": ["graphical_models/classes/dags/gaussdag.py:GaussDAG.interventional_dag", "graphical_models/classes/dags/gaussdag.py:GaussDAG.sample_interventional_perfect", "graphical_models/classes/dags/gaussdag.py:GaussDAG.sample"]}
{"id": "C124", "title": "deterministic_intervention_means returns the means under an intervention", "statement": "For a GaussDAG on nodes 0..n-1, g.deterministic_intervention_means(intervention) raises nothing and is the mean of each node after the given nodes are set to the given values.", "quantifier": "all acyclic weights, biases, interventions, iteration orders", "why_tests_cant": "fails only if some arc points to a smaller label", "anchors": ["graphical_models/classes/dags/gaussdag.py:GaussDAG.deterministic_intervention_means"]}
{"id": "C125", "title": "soft_interventional_dag replaces the equations of the targets", "statement": "g.soft_interventional_dag(interventions), where an intervention consists of a bias, a variance and weights for the parents, raises nothing; the result has these biases, variances and weights at the targets and those of g elsewhere.", "quantifier": "all acyclic GaussDAGs on nodes 0..n-1, all interventions", "why_tests_cant": "all weights and interventions", "anchors": ["graphical_models/classes/dags/gaussdag.py:GaussDAG.soft_interventional_dag"]}
{"id": "C126", "title": "interventional_covariance is the covariance of the remaining nodes", "statement": "For a GaussDAG on nodes 0..n-1, g.interventional_covariance(S) raises nothing and is the covariance matrix of the nodes outside S when the nodes in S are fixed.", "quantifier": "all acyclic weights, variances and sets of nodes", "why_tests_cant": "all weights and sets", "anchors": ["graphical_models/classes/dags/gaussdag.py:GaussDAG.interventional_covariance"]}
{"id": "C127", "title": "get_marginals and get_marginal return the marginal distribution", "statement": "For a DiscreteDAG whose tables are conditional probability tables of its graph, get_marginals(nodes) for a nonempty list of distinct nodes raises nothing and returns the table of the joint distribution of these nodes, with the axes in the order of the list; get_marginals(nodes, log=True) returns the logarithms; get_marginal(node) returns the distribution of the node (exact arithmetic).", "quantifier": "all DAGs, alphabets, conditional probability tables, lists of nodes and iteration orders", "why_tests_cant": "variable elimination over all graphs; the sum over all assignments of the other nodes", "anchors": ["graphical_models/classes/dags/discrete_dag.py:DiscreteDAG.get_marginals", "graphical_models/classes/dags/discrete_dag.py:DiscreteDAG.get_marginal", "graphical_models/classes/dags/discrete_dag.py:no_warn_log", "graphical_models/classes/dags/discrete_dag.py:add_variable", "graphical_models/classes/dags/discrete_dag.py:repeat_dimensions", "graphical_models/classes/dags/discrete_dag.py:marginalize"]}
{"id": "C128", "title": "get_mean_and_variance returns the mean and the variance", "statement": "If no entry of a table is positive but at most 1e-10, get_mean_and_variance(node) raises nothing and returns the expectation and the variance of the alphabet value of the node (exact arithmetic).", "quantifier": "all DAGs, alphabets, conditional probability tables with entries zero or above 1e-10, nodes and iteration orders", "why_tests_cant": "expectation under the joint distribution", "anchors": ["graphical_models/classes/dags/discrete_dag.py:DiscreteDAG.get_mean_and_variance", "graphical_models/classes/dags/discrete_dag.py:DiscreteDAG.get_marginal"]}
{"id": "C129", "title": "get_marginals_new returns the marginal distribution", "statement": "If no entry of a table is positive but at most 1e-10, get_marginals_new(nodes) for a nonempty list of distinct nodes raises nothing and returns the table of the joint distribution of these nodes (exact arithmetic).", "quantifier": "all DAGs, alphabets, conditional probability tables with entries zero or above 1e-10, lists of nodes and iteration orders", "why_tests_cant": "fails as soon as two ancestors have no parents; works on trees", "anchors": ["graphical_models/classes/dags/discrete_dag.py:DiscreteDAG.get_marginals_new", "graphical_models/classes/dags/discrete_dag.py:add_variable", "graphical_models/classes/dags/discrete_dag.py:repeat_dimensions"]}
{"id": "C130", "title": "get_conditional with another method returns the conditional distribution", "statement": "If no entry of a table is positive but at most 1e-10, get_conditional(nodes, given, method=m) for m other than 'new' raises nothing if at most one node is in both lists. It returns the conditional distribution of the nodes given the values of the others, uniform where the condition has probability zero. A node in both lists has two axes, and the entry is zero where they differ. It raises if two nodes are in both lists (exact arithmetic).", "quantifier": "all DAGs, alphabets, conditional probability tables with entries zero or above 1e-10, lists of distinct nodes and iteration orders", "why_tests_cant": "all tables and lists", "anchors": ["graphical_models/classes/dags/discrete_dag.py:DiscreteDAG.get_conditional", "graphical_models/classes/dags/discrete_dag.py:add_repeated_nodes_conditional", "graphical_models/classes/dags/discrete_dag.py:DiscreteDAG.get_marginals"]}
{"id": "C131", "title": "get_conditional returns the conditional distribution by default", "statement": "If no entry of a table is positive but at most 1e-10, get_conditional(nodes, given) raises nothing if at most one node is in both lists, and returns the conditional distribution of the nodes given the values of the others (as with other methods).", "quantifier": "all DAGs, alphabets, conditional probability tables with entries zero or above 1e-10, lists of distinct nodes and iteration orders", "why_tests_cant": "fails as soon as two ancestors have no parents; works on trees", "anchors": ["graphical_models/classes/dags/discrete_dag.py:DiscreteDAG.get_conditional", "graphical_models/classes/dags/discrete_dag.py:DiscreteDAG.get_marginals_new"]}
{"id": "C132", "title": "sample of a DiscreteDAG draws from the joint distribution", "statement": "For a DiscreteDAG whose tables are conditional probability tables of its graph, sample() raises nothing, and if the uniform random numbers it uses are independent, the probability that a row shows a given assignment is the product of the table entries.", "quantifier": "all DAGs, tables, alphabets, iteration orders, column orders", "why_tests_cant": "equality of distributions; passes for alphabets 0..k-1, which are the only ones in use", "anchors": ["graphical_models/classes/dags/discrete_dag.py:DiscreteDAG.sample"]}
{"id": "C133", "title": "weighted_samples is unbiased", "statement": "weighted_samples(nodes, values) raises nothing for distinct nodes and values in range. For independent uniform random numbers, the expectation of any function of a row times the product of its weights is the sum of the function over the assignments with the given values, weighted with their probabilities; in particular the expected product of the weights is the probability of the values.", "quantifier": "all DAGs, tables, alphabets, labels, lists of nodes and values, iteration orders", "why_tests_cant": "expectation; passes when the labels are the columns", "anchors": ["graphical_models/classes/dags/discrete_dag.py:DiscreteDAG.weighted_samples"]}
{"id": "C134", "title": "sample_interventional of a DiscreteDAG draws from the interventional distribution", "statement": "sample_interventional(values) raises nothing for values in range, and for independent uniform random numbers a row has the distribution of the truncated factorisation: the given nodes have the given values, and the probability is the product of the table entries of the others.", "quantifier": "all DAGs, tables, alphabets, labels, nonempty dictionaries of values, iteration orders", "why_tests_cant": "equality of distributions; passes when the labels are the columns", "anchors": ["graphical_models/classes/dags/discrete_dag.py:DiscreteDAG.sample_interventional"]}
{"id": "C135", "title": "get_hard_interventional_dag is the interventional distribution", "statement": "get_hard_interventional_dag(node, value) for a value of the alphabet of the node raises nothing. The result has the same nodes, the arcs that do not point to the node, tables that are conditional probability tables of this graph, and the joint distribution of the truncated factorisation.", "quantifier": "all DAGs, tables, alphabets without repetitions, nodes, values, iteration orders", "why_tests_cant": "equality of joint distributions over all tables", "anchors": ["graphical_models/classes/dags/discrete_dag.py:DiscreteDAG.get_hard_interventional_dag", "graphical_models/classes/dags/discrete_dag.py:DiscreteDAG.__init__"]}
{"id": "C136", "title": "get_marginal_dag keeps the distribution of the remaining nodes", "statement": "get_marginal_dag(nodes) for distinct nodes raises nothing. The result has the other nodes with their alphabets (with relabel=True, each label is lowered by the number of smaller removed labels), its tables are conditional probability tables of its graph, and the joint distribution of the remaining nodes is the same as before.", "quantifier": "all DAGs, tables, lists of nodes, iteration orders", "why_tests_cant": "passes for chains; fails if a removed node has two children", "anchors": ["graphical_models/classes/dags/discrete_dag.py:DiscreteDAG.get_marginal_dag"]}
{"id": "C137", "title": "fit maximises the likelihood", "statement": "DiscreteDAG.fit(dag, data) for data with at least one row of natural numbers raises nothing and has the nodes and arcs of dag, alphabets 0..max, and tables that are conditional probability tables of dag. No other conditional probability tables of dag with these alphabets give the rows a larger probability (exact arithmetic).", "quantifier": "all DAGs on column numbers, all data, all competing tables, all iteration orders", "why_tests_cant": "maximum over all tables", "anchors": ["graphical_models/classes/dags/discrete_dag.py:DiscreteDAG.fit", "graphical_models/classes/dags/discrete_dag.py:get_conditional"]}
{"id": "C138", "title": "fit with given alphabets maximises the likelihood", "statement": "DiscreteDAG.fit(dag, data, node_alphabets=alphabets), for data whose values are in the alphabets, raises nothing, and the tables give the rows the largest probability among all conditional probability tables of dag with these alphabets (exact arithmetic).", "quantifier": "all DAGs on column numbers, all data, alphabets, competing tables, iteration orders", "why_tests_cant": "passes for alphabets 0..k-1", "anchors": ["graphical_models/classes/dags/discrete_dag.py:DiscreteDAG.fit", "graphical_models/classes/dags/discrete_dag.py:get_conditional"]}
{"id": "C139", "title": "fit with add_one_mle smooths the frequencies", "statement": "DiscreteDAG.fit(dag, data, method='add_one_mle', alpha=alpha) for positive alpha and data with at least one row of natural numbers raises nothing; the tables are conditional probability tables of dag, and the entry of value i of a node given values z of its parents is (number of rows with z and i + alpha) / (number of rows with z + k alpha) where k is the size of the alphabet (exact arithmetic).", "quantifier": "all DAGs on column numbers, all data, alpha > 0, iteration orders", "why_tests_cant": "all data; includes parent values that do not occur in the data", "anchors": ["graphical_models/classes/dags/discrete_dag.py:DiscreteDAG.fit", "graphical_models/classes/dags/discrete_dag.py:get_conditional"]}
{"id": "C140", "title": "The graph of a GGM shows its conditional independences", "statement": "GGM(P) for a positive definite matrix P has the nodes 0..n-1 and an edge for each nonzero entry off the diagonal. There is no edge i - j if and only if partial_correlation(i, j, all other nodes) is zero, and if every path from i to j meets C, then partial_correlation(i, j, C) is zero (exact arithmetic).", "quantifier": "all positive definite matrices, pairs of nodes, sets C, iteration orders", "why_tests_cant": "global Markov property over all matrices and separating sets; floating point zeros are never exact in tests", "anchors": ["graphical_models/classes/undirected/ggm.py:GGM.__init__", "graphical_models/classes/undirected/ggm.py:GGM.partial_correlation"]}
{"id": "C141", "title": "partial_correlation of a GGM is the correlation of the residuals", "statement": "For a GGM with positive definite precision matrix, covariance is the inverse of the precision matrix, partial_correlation(i, j, C) raises nothing and is the correlation of the residuals of i and j after regression on C, and neither call changes the graph or makes a cached matrix wrong.", "quantifier": "all positive definite matrices, pairs of nodes, sets C, states of the caches", "why_tests_cant": "all matrices and sets", "anchors": ["graphical_models/classes/undirected/ggm.py:GGM.partial_correlation", "graphical_models/classes/undirected/ggm.py:GGM.covariance", "graphical_models/classes/undirected/ggm.py:GGM.correlation"]}
{"id": "C142", "title": "from_covariance and from_adjacency give the intended GGM", "statement": "GGM.from_covariance(S) for positive definite S raises nothing and has covariance S. GGM.from_adjacency(A, variances) for acyclic weights and positive variances has the covariance matrix of the linear structural equations with these weights, and an edge i - j only if i and j are adjacent or have a common child.", "quantifier": "all positive definite S, acyclic A, positive variances", "why_tests_cant": "all matrices", "anchors": ["graphical_models/classes/undirected/ggm.py:GGM.from_covariance", "graphical_models/classes/undirected/ggm.py:GGM.from_adjacency"]}
{"id": "C143", "title": "rand_discrete_dag puts conditional probability tables on the graph", "statement": "rand_discrete_dag(dag, node_alphabets) raises nothing; the result has the nodes, arcs and alphabets asked for, and its tables are the drawn probability vectors, one for each combination of values of the parents.", "quantifier": "all DAGs, alphabets, results of the Dirichlet draws, iteration orders", "why_tests_cant": "all graphs; passes for labels 0..n-1", "anchors": ["graphical_models/rand/graphs.py:rand_discrete_dag"]}
{"id": "C144", "title": "rand_noisy_or_dag makes noisy or models", "statement": "rand_noisy_or_dag(dag) raises nothing; the result has the nodes and arcs of dag and conditional probability tables in which a node with parents is 0 with probability q times the product of p_k over those parents k that are 1, for the drawn numbers q and p.", "quantifier": "all DAGs, draws in [0, 1], iteration orders", "why_tests_cant": "all graphs and numbers of parents; passes for labels 0..n-1", "anchors": ["graphical_models/rand/graphs.py:rand_noisy_or_dag", "graphical_models/rand/graphs.py:tensor_product"]}
{"id": "C145", "title": "Random weights keep away from zero and from the original", "statement": "unif_away_zero(low, high) returns numbers with absolute value between low and high, positive ones with all_positive. unif_away_original(x, dist, low, high) with |x| <= high and 0 <= low < high raises nothing for dist <= low, which is what its error message asks for; whenever it returns, the result has an absolute value between low and high and a distance of at least dist from x.", "quantifier": "all real arguments, all draws", "why_tests_cant": "all draws", "anchors": ["graphical_models/rand/graphs.py:unif_away_zero", "graphical_models/rand/graphs.py:unif_away_original"]}
{"id": "C146", "title": "rand_normal_wishart puts the drawn weights on the graph", "statement": "rand_normal_wishart(dag) raises nothing; the result has the nodes and arcs of dag, and each weight, bias and variance is the one drawn for it (provided that no drawn weight is exactly zero).", "quantifier": "all DAGs with arbitrary integer labels, all draws, iteration orders", "why_tests_cant": "all graphs and draws", "anchors": ["graphical_models/rand/graphs.py:rand_normal_wishart"]}
{"id": "C147", "title": "rand_nn_functions returns a model that can be sampled", "statement": "rand_nn_functions(dag, num_layers) raises nothing and has the nodes and arcs of dag; sample(k) of the result raises nothing and returns k rows.", "quantifier": "all DAGs, numbers of layers and samples, iteration orders", "why_tests_cant": "no test exists; it fails for every graph", "anchors": ["graphical_models/rand/graphs.py:rand_nn_functions", "graphical_models/classes/dags/sample_dag.py:SampleDAG.sample"]}
{"id": "C148", "title": "alter_weights alters, removes and adds arcs", "statement": "alter_weights(g, ...) with numbers or probabilities for altered, removed and added arcs (of at most the available arcs) raises nothing. The result is an acyclic GaussDAG with the same nodes, biases and variances; as many arcs as asked for have the weight given by rand_change_fn, are missing, or are new with a drawn weight; all other weights are as before.", "quantifier": "all GaussDAGs, numbers, probabilities, draws, iteration orders", "why_tests_cant": "all graphs and draws; works only with numbers", "anchors": ["graphical_models/rand/graphs.py:alter_weights"]}
{"id": "C149", "title": "SemiMarkovian: constructor and c_components", "statement": "`SemiMarkovian(nodes, directed, bidirected)` stores exactly the given arcs and bidirected edges, adds their ends to the nodes, and its parent, child, spouse and adjacency views agree. `c_components()` terminates and returns pairwise disjoint sets that cover the nodes; two nodes are in the same set exactly when they are joined by a path of bidirected edges.", "quantifier": "all graphs, cyclic or not, with or without loops; all iteration orders of sets and all orders of `set.pop`", "why_tests_cant": "The search shares one `visited` set among all recursive calls and filters lazily; whether the result is right for every pop order and every iteration order can not be sampled.", "anchors": ["graphical_models/classes/semi_markovian.py:SemiMarkovian.__init__", "graphical_models/classes/semi_markovian.py:SemiMarkovian._add_directed", "graphical_models/classes/semi_markovian.py:SemiMarkovian._add_bidirected", "graphical_models/classes/semi_markovian.py:SemiMarkovian.c_components"]}
{"id": "C150", "title": "SemiMarkovian.topological_sort", "statement": "`topological_sort()` always terminates. If the arcs are acyclic it returns all nodes, each once, with the tail of each arc before its head. If there is a directed cycle it raises.", "quantifier": "all graphs, all iteration orders", "why_tests_cant": "Cycles may be met at any point of the depth first search, and the order of iteration decides which one.", "anchors": ["graphical_models/classes/semi_markovian.py:SemiMarkovian.topological_sort", "graphical_models/classes/semi_markovian.py:SemiMarkovian._mark_children_visited"]}
{"id": "C151", "title": "SemiMarkovian.ancestors_of", "statement": "`ancestors_of(S, include_argument)` returns the ancestors of `S` (with `S` itself if `include_argument`) and does not change the set passed by the caller.", "quantifier": "all graphs, all sets of nodes, both values of `include_argument`", "why_tests_cant": "The method is called only by the identification algorithm, for which there are no tests; that no input at all makes it return is a statement about all inputs.", "anchors": ["graphical_models/classes/semi_markovian.py:SemiMarkovian.ancestors_of", "graphical_models/classes/semi_markovian.py:SemiMarkovian.parents_of"]}
{"id": "C152", "title": "SemiMarkovian: identification", "statement": "`general_identification(y, x, available_experiments)` returns a formula or raises `NonIdentifiabilityError`; `sub_identification(y, x, distribution)` returns a formula or `None`. A matching experiment is returned as it is, and an empty `x` leads to a marginal distribution.", "quantifier": "all graphs, all sets `y` and `x`, all lists of experiments", "why_tests_cant": "It can not be seen from examples that every query outside the two short cuts fails, whatever the graph.", "anchors": ["graphical_models/classes/semi_markovian.py:SemiMarkovian.general_identification", "graphical_models/classes/semi_markovian.py:SemiMarkovian.sub_identification"]}
{"id": "C153", "title": "Identification formulas: conditionals and marginals", "statement": "`get_conditional(m, d)` of a formula denotes the conditional distribution of the variables `m` given `d` in the distribution denoted by the formula, and `marginalize_out(w)` the distribution with `w` summed out.", "quantifier": "all formulas, all joint distributions under all interventions, all sets `m`, `d`, `w`; finite value sets", "why_tests_cant": "The formulas are symbolic; a test can compare strings, but not that they denote the right function for all distributions.", "anchors": ["graphical_models/classes/semi_markovian.py:IDFormula", "graphical_models/classes/semi_markovian.py:ProbabilityTerm", "graphical_models/classes/semi_markovian.py:Product", "graphical_models/classes/semi_markovian.py:MarginalDistribution"]}
{"id": "C154", "title": "SemiMarkovian: induced_subgraph and mutilated_graph", "statement": "`induced_subgraph(nodes)` has the given nodes and exactly the edges between them; with `removed_nodes=r` it is the graph on the other nodes. `mutilated_graph(out, inc)` drops exactly the arcs leaving `out` or entering `inc`; each argument may be omitted.", "quantifier": "all graphs accepted by the constructor, all sets of nodes, arguments given or omitted", "why_tests_cant": "Edges of size one and omitted arguments are boundary cases; the statement is about all graphs.", "anchors": ["graphical_models/classes/semi_markovian.py:SemiMarkovian.mutilated_graph", "graphical_models/classes/semi_markovian.py:SemiMarkovian.induced_subgraph"]}
{"id": "C155", "title": "possible_parents lists exactly the undirected parent sets of the class", "statement": "For the CPDAG (or interventional essential graph) of a DAG and a node v, a set s is yielded by possible_parents(v) iff some member of the equivalence class has exactly s as the parents of v among the nodes joined to v by an undirected edge.", "quantifier": "all finite DAGs, all families of intervention targets, all nodes, all sets, all iteration orders", "why_tests_cant": "needs, for every clique around v, a member of the equivalence class realising it (an elimination order of a chordal graph that starts with the clique), and that no member has other parents", "anchors": ["graphical_models/classes/dags/pdag.py:PDAG.possible_parents", "graphical_models/classes/dags/pdag.py:PDAG.is_edge_clique", "graphical_models/classes/dags/dag.py:DAG.cpdag"]}
{"id": "C156", "title": "assign_parents shows the members of the class with those parents", "statement": "For the CPDAG (or interventional essential graph) of a DAG and a set s listed by possible_parents(v), assign_parents(v, s) terminates without raising and leaves exactly the arcs common to all members of the class in which the undirected parents of v are s, and edges where those members disagree; the result again is such a graph, so the calls can be chained. A parent without an undirected edge to v raises KeyError. A set that is no clique is accepted and creates new v-structures.", "quantifier": "all finite DAGs, all families of intervention targets, all nodes and parent sets, all iteration orders", "why_tests_cant": "the arcs forced by an assignment are a statement about all members of the class that comply with it", "anchors": ["graphical_models/classes/dags/pdag.py:PDAG.assign_parents", "graphical_models/classes/dags/pdag.py:PDAG._replace_edge_with_arc", "graphical_models/classes/dags/pdag.py:PDAG.to_complete_pdag"]}
{"id": "C157", "title": "cpdag_new(new=True) returns the CPDAG", "statement": "For every DAG, cpdag_new(new=True) (which uses PDAG.to_complete_pdag_new) returns a PDAG equal to cpdag().", "quantifier": "all finite DAGs, all iteration orders", "why_tests_cant": "the wrong result is only visible on graphs with compelled arcs outside v-structures", "anchors": ["graphical_models/classes/dags/dag.py:DAG.cpdag_new", "graphical_models/classes/dags/pdag.py:PDAG.to_complete_pdag_new"]}
{"id": "C158", "title": "Removing and orienting edges of a PDAG keeps all views in step", "statement": "On every PDAG the constructor accepts, remove_edge, remove_arc, remove_edges_from, remove_arcs_from, remove_all_arcs and replace_edge_with_arc change exactly the named edges and arcs, keep parents, children, neighbors and undirected neighbors in agreement with the sets of arcs and edges, and raise KeyError (or do nothing with ignore_error=True) without changing the object if the edge or arc is not there.", "quantifier": "all PDAG objects, all pairs of nodes, both values of ignore_error", "why_tests_cant": "the views drift only on particular combinations of marks and call orders", "anchors": ["graphical_models/classes/dags/pdag.py:PDAG.remove_edge", "graphical_models/classes/dags/pdag.py:PDAG.remove_arc", "graphical_models/classes/dags/pdag.py:PDAG.remove_edges_from", "graphical_models/classes/dags/pdag.py:PDAG.remove_arcs_from", "graphical_models/classes/dags/pdag.py:PDAG.remove_all_arcs", "graphical_models/classes/dags/pdag.py:PDAG.replace_edge_with_arc"]}
{"id": "C159", "title": "remove_node of a PDAG removes the node and only its arcs and edges", "statement": "For every node of a PDAG, remove_node(node) returns without raising and leaves the graph induced on the other nodes with consistent views; for anything else it raises KeyError and changes nothing.", "quantifier": "all PDAG objects in which no pair carries two marks, all nodes, all iteration orders", "why_tests_cant": "depends on which dictionary entries exist, which in turn depends on the calls made before", "anchors": ["graphical_models/classes/dags/pdag.py:PDAG.remove_node", "graphical_models/classes/dags/pdag.py:PDAG.remove_nodes_from"]}
{"id": "C160", "title": "vstructs returns the arcs of the v-structures of a PDAG", "statement": "vstructs() returns exactly the arcs i -> j such that j has another parent that is not adjacent to i.", "quantifier": "all PDAG objects with consistent views, all iteration orders", "why_tests_cant": "the defect needs two parents joined by an undirected edge, which in a CPDAG requires at least five nodes", "anchors": ["graphical_models/classes/dags/pdag.py:PDAG.vstructs"]}
{"id": "C161", "title": "get_efficient_influence_function returns the efficient influence function", "statement": "For a discrete network whose alphabets are 0..k-1 and nodes T != Y, get_efficient_influence_function(T, Y, c, propensity, ignored_nodes, sampled_values) returns a function that maps every row of samples (whose values occur in sampled_values) to the efficient influence function of E[1{T = c} Y] / propensity in the model in which the tables of all nodes outside ignored_nodes are free: the function lies in the tangent space of the model, and its inner product with the score of every direction is the derivative of the functional in that direction. Such a function is unique on values of positive probability.", "quantifier": "all discrete networks with labels as columns, all nodes T != Y, all values, all propensities, all sets of ignored nodes, all samples of positive probability, all iteration orders, every exact inference", "why_tests_cant": "the efficient influence function is defined by derivatives along all directions of the model; a test can only compare with another formula", "anchors": ["graphical_models/classes/dags/discrete_dag.py:DiscreteDAG.get_efficient_influence_function", "graphical_models/classes/dags/discrete_dag.py:DiscreteDAG.get_efficient_influence_function_partial", "graphical_models/classes/dags/discrete_dag.py:DiscreteDAG.get_efficient_influence_function_conditionals_partial", "graphical_models/classes/dags/dag.py:DAG.get_standard_imset"]}
{"id": "C162", "title": "get_efficient_influence_function raises if a term contains both nodes", "statement": "If some set with nonzero coefficient in get_standard_imset contains both T and Y (for instance if Y is a child of T and the family of Y is no parent set of a sibling), get_efficient_influence_function raises for every nonempty sampled_values, whatever the inference answers.", "quantifier": "all discrete networks, all nodes T != Y, all sets of ignored nodes with such a term, all samples, all inferences, all iteration orders", "why_tests_cant": "quantifies over all graphs and all answers of the inference library", "anchors": ["graphical_models/classes/dags/discrete_dag.py:DiscreteDAG.get_efficient_influence_function", "graphical_models/classes/dags/discrete_dag.py:add_repeated_nodes_marginal", "graphical_models/classes/dags/discrete_dag.py:DiscreteDAG.get_conditional_pgmpy"]}
{"id": "C163", "title": "The returned influence function knows only the values of sampled_values", "statement": "The function returned by get_efficient_influence_function raises KeyError for an array with a row that, restricted to some nonempty set with nonzero coefficient in get_standard_imset, differs from every row of sampled_values.", "quantifier": "all discrete networks, all samples, all arrays, all iteration orders", "why_tests_cant": "needs rows outside the samples on particular subsets of nodes", "anchors": ["graphical_models/classes/dags/discrete_dag.py:DiscreteDAG.get_efficient_influence_function_partial"]}
{"id": "C164", "title": "get_efficient_influence_function cannot be used with partial=False or without samples", "statement": "get_efficient_influence_function(..., partial=False) raises for every network and all arguments. With the default sampled_values=None it raises unless all nodes are ignored.", "quantifier": "all discrete networks, all nodes, values, propensities and sets of ignored nodes", "why_tests_cant": "a test shows it for single calls only", "anchors": ["graphical_models/classes/dags/discrete_dag.py:DiscreteDAG.get_efficient_influence_function", "graphical_models/classes/dags/discrete_dag.py:DiscreteDAG.get_efficient_influence_function_full"]}
{"id": "C165", "title": "directed_clique_tree of a DAG without v-structures is a clique tree directed by the arcs", "statement": "For every DAG directed_clique_tree terminates, whatever the order of the cliques, and its edges join overlapping cliques without closing a cycle. For a DAG without v-structures it is a clique tree: a forest on the maximal cliques in which any two overlapping cliques c, d are joined by a path of cliques that contain c & d. If c and d are adjacent in it, the edge from c to d is present exactly if all members of c & d are parents of all other members of d.", "quantifier": "all DAGs (without v-structures for the second part), all orders in which networkx lists the maximal cliques, all tie-breakings in the union-find structure", "why_tests_cant": "the rejections of the source test never matter only because of a global argument over all cliques; a test sees one order and one graph", "anchors": ["graphical_models/classes/dags/dag.py:DAG.directed_clique_tree"]}
{"id": "C166", "title": "The contracted directed clique tree is a directed forest in which every node has at most one predecessor", "statement": "The nodes of contracted_directed_clique_tree partition the cliques, two cliques being in one part exactly if they are joined by edges in both directions; there is an arc between parts exactly if there is one between their members; there is no directed cycle, and no part has two predecessors.", "quantifier": "all DAGs without v-structures, all orders of the cliques and tie-breakings", "why_tests_cant": "a second predecessor needs a union-find pointer that is two steps away from its root, which takes seven cliques in a certain order", "anchors": ["graphical_models/classes/dags/dag.py:DAG.contracted_directed_clique_tree", "graphical_models/classes/dags/dag.py:DAG.directed_clique_tree"]}
{"id": "C167", "title": "residuals is a partition of the nodes", "statement": "For a DAG without v-structures, residuals() is a list of nonempty pairwise disjoint sets of nodes that cover all nodes.", "quantifier": "all DAGs without v-structures, all orders of the cliques, tie-breakings and orders of the contracted tree", "why_tests_cant": "fails only for contracted trees with two predecessors, which need many cliques in a certain order", "anchors": ["graphical_models/classes/dags/dag.py:DAG.residuals"]}
{"id": "C168", "title": "residual_essential_graph directs the arcs between different residuals", "statement": "For a DAG without v-structures, residual_essential_graph() passes an arc i -> j of the DAG to PDAG as an arc if i and j are in different residuals, and as an undirected edge otherwise.", "quantifier": "all DAGs without v-structures, all orders of the cliques, tie-breakings and orders of the contracted tree", "why_tests_cant": "the arcs are computed from the parent component of each component only; that no other pairs occur is a global property of the clique tree", "anchors": ["graphical_models/classes/dags/dag.py:DAG.residual_essential_graph", "graphical_models/classes/dags/dag.py:DAG.residuals"]}
{"id": "C169", "title": "optimal_fully_orienting_single_node_interventions(new=True) is a smallest verifying set", "statement": "For a DAG without v-structures, optimal_fully_orienting_single_node_interventions(new=True) returns a set of nodes whose single-node interventions, with observational data, leave the DAG as the only member of its Markov equivalence class, and no smaller set does.", "quantifier": "all DAGs without v-structures, all orders of the cliques, tie-breakings and set orders", "why_tests_cant": "optimality quantifies over all sets of interventions; the failing cases need a clique tree with edges in both directions", "anchors": ["graphical_models/classes/dags/dag.py:DAG.optimal_fully_orienting_single_node_interventions", "graphical_models/classes/dags/dag.py:DAG._verification_optimal_helper"]}
{"id": "C170", "title": "AncestralGraph.markov_blanket_of returns the Markov blanket", "statement": "markov_blanket_of(v, flat=True) returns v together with the smallest set of nodes given which v is m-separated from all other nodes; without flat it returns a dictionary whose keys are the district of v and whose values are their parents.", "quantifier": "all ancestral graphs built through the API, all nodes", "why_tests_cant": "m-separation from all other nodes and minimality among all separating sets cannot be sampled", "anchors": ["graphical_models/classes/mags/ancestral_graph.py:AncestralGraph.markov_blanket_of", "graphical_models/classes/mags/ancestral_graph.py:AncestralGraph.district_of"]}
{"id": "C171", "title": "UndirectedGraph survives the round trip through its adjacency matrix", "statement": "to_amat(node_list) has entry 1 at [a, b] iff node_list[a] and node_list[b] are joined by an edge and 0 otherwise; from_amat(M) has nodes 0..n-1 and an edge i - j iff i != j and M[i, j] or M[j, i] is not zero; for a graph on 0..n-1 from_amat(to_amat()) is the graph.", "quantifier": "all undirected graphs, all node lists, all square matrices, all iteration orders", "why_tests_cant": "edges that were added between labels outside the nodes are needed to see the failure; asymmetric matrices are symmetrised silently", "anchors": ["graphical_models/classes/undirected/undirected_graph.py:UndirectedGraph.to_amat", "graphical_models/classes/undirected/undirected_graph.py:UndirectedGraph.from_amat"]}
{"id": "C172", "title": "UndirectedGraph.copy and rename_nodes preserve the graph", "statement": "copy() returns an equal graph; rename_nodes(m) has the new names as nodes, and two different new names are joined iff nodes with these names are; a node without a name raises KeyError; renaming injectively and back gives the graph.", "quantifier": "all undirected graphs, all name maps, all iteration orders", "why_tests_cant": "all name maps, also those that merge nodes, cannot be enumerated", "anchors": ["graphical_models/classes/undirected/undirected_graph.py:UndirectedGraph.copy", "graphical_models/classes/undirected/undirected_graph.py:UndirectedGraph.rename_nodes"]}
{"id": "C173", "title": "UndirectedGraph.add_edges_from and delete_edges_from change exactly the listed edges", "statement": "add_edges_from(l) for pairs of distinct labels adds exactly the listed edges and no nodes; delete_edges_from(l) removes exactly the listed edges if all are there and none is listed twice; otherwise it raises KeyError at the first edge that is not there any more, with exactly the edges before it removed.", "quantifier": "all undirected graphs, all lists of pairs", "why_tests_cant": "the state after an exception depends on the position of the first missing edge", "anchors": ["graphical_models/classes/undirected/undirected_graph.py:UndirectedGraph.add_edges_from", "graphical_models/classes/undirected/undirected_graph.py:UndirectedGraph.delete_edges_from"]}
{"id": "C174", "title": "PAG matrices survive the round trip", "statement": "For a matrix with entries 0 to 3, zero diagonal and symmetric support, PAG.from_amat(M).to_amat() is M; other entries are normalised; an entry 1, 2 or 3 on the diagonal makes to_amat raise ValueError; a PAG on 0..n-1 with disjoint marks on its adjacencies is PAG.from_amat(p.to_amat()).", "quantifier": "all matrices, all PAGs, all iteration orders", "why_tests_cant": "the order in which tails and arrowheads overwrite the entries matters only for some combinations of marks", "anchors": ["graphical_models/classes/mags/pag.py:PAG.from_amat", "graphical_models/classes/mags/pag.py:PAG.to_amat"]}
{"id": "C175", "title": "PAG.shd_skeleton is a distance between skeletons", "statement": "p.shd_skeleton(q) is the number of pairs adjacent in exactly one of the graphs; it is symmetric, zero iff the adjacencies coincide, and satisfies the triangle inequality.", "quantifier": "all triples of PAGs", "why_tests_cant": "the triangle inequality quantifies over all triples", "anchors": ["graphical_models/classes/mags/pag.py:PAG.shd_skeleton"]}
{"id": "C176", "title": "Degrees, sparsity and views of node sets describe the arcs", "statement": "The in-degrees and the out-degrees sum to the number of arcs; incoming_arcs and outgoing_arcs are the arcs at a node; max_in_degree and max_out_degree are the largest degrees (ValueError without nodes); sparsity of a DAG with at least two nodes lies in [0, 1], is 0 iff there are no arcs and 1 iff any two nodes are adjacent (ZeroDivisionError for fewer nodes); parents_of, children_of and neighbors_of of a nonempty set are unions (TypeError for the empty set).", "quantifier": "all finite DAGs, all nonempty node sets", "why_tests_cant": "sums over all graphs; the bound on sparsity needs acyclicity", "anchors": ["graphical_models/classes/dags/dag.py:DAG.in_degrees", "graphical_models/classes/dags/dag.py:DAG.out_degrees", "graphical_models/classes/dags/dag.py:DAG.max_in_degree", "graphical_models/classes/dags/dag.py:DAG.sparsity", "graphical_models/classes/dags/dag.py:DAG.incoming_arcs", "graphical_models/classes/dags/dag.py:DAG.outgoing_arcs", "graphical_models/classes/dags/dag.py:DAG.parents_of"]}
{"id": "C177", "title": "DAG.triples returns the triples with a common neighbour", "statement": "triples() returns all triples (i, j, k) such that i and k are different and both adjacent to j.", "quantifier": "all finite DAGs, all iteration orders", "why_tests_cant": "a test on one graph cannot see that the result is the same for different triples", "anchors": ["graphical_models/classes/dags/dag.py:DAG.triples"]}
{"id": "C178", "title": "DAG.from_dataframe and to_dataframe are inverse to each other", "statement": "from_dataframe(df) returns a DAG iff the nonzero entries, read as arcs from row label to column label, have no cycle; the DAG then has exactly the labels as nodes and these arcs; otherwise it raises. For every list of the nodes from_dataframe(d.to_dataframe(node_list)) equals d.", "quantifier": "all data frames (also with different row and column labels), all DAGs, all node lists, all iteration orders", "why_tests_cant": "the acyclicity check runs after every insertion, so success in all orders is a property of all prefixes", "anchors": ["graphical_models/classes/dags/dag.py:DAG.from_dataframe", "graphical_models/classes/dags/dag.py:DAG.to_dataframe"]}
{"id": "C179", "title": "The chain components of a CPDAG are chordal and carry no arcs", "statement": "Every graph returned by cpdag().chain_components() has no arcs, contains an undirected edge for every adjacency of the DAG between two of its nodes, and each of its cycles of length at least four has a chord. The same holds for interventional_cpdag().", "quantifier": "all finite DAGs, all intervention families, all iteration orders", "why_tests_cant": "chordality quantifies over all cycles of all components of all graphs", "anchors": ["graphical_models/classes/dags/pdag.py:PDAG.chain_components", "graphical_models/classes/dags/dag.py:DAG.cpdag", "graphical_models/classes/dags/dag.py:DAG.interventional_cpdag"]}
{"id": "C180", "title": "PDAG.max_cliques and clique_size describe the cliques of the undirected part", "statement": "For a PDAG whose undirected part is chordal, max_cliques() is the set of the maximal cliques of the undirected part and clique_size() is the size of a largest one; in particular for cpdag().", "quantifier": "all finite PDAGs, all iteration orders, any chordal clique enumeration that does what networkx documents", "why_tests_cant": "the recursion over the chain components ends only if no component contains an arc", "anchors": ["graphical_models/classes/dags/pdag.py:PDAG.max_cliques", "graphical_models/classes/dags/pdag.py:PDAG.clique_size"]}
{"id": "C181", "title": "Degrees of a PDAG satisfy the handshake identities", "statement": "Without double adjacencies total_degree_of is indegree_of + outdegree_of + undirected_degree_of; in-degrees and out-degrees each sum to num_arcs, undirected degrees to 2 num_edges, total degrees to 2 num_adjacencies; num_adjacencies is the size of the skeleton.", "quantifier": "all PDAGs with consistent views", "why_tests_cant": "identities between sums over all nodes of all graphs", "anchors": ["graphical_models/classes/dags/pdag.py:PDAG.indegree_of", "graphical_models/classes/dags/pdag.py:PDAG.outdegree_of", "graphical_models/classes/dags/pdag.py:PDAG.undirected_degree_of", "graphical_models/classes/dags/pdag.py:PDAG.total_degree_of", "graphical_models/classes/dags/pdag.py:PDAG.num_adjacencies"]}
{"id": "C182", "title": "PDAG.rename_nodes is an isomorphism", "statement": "For a dictionary that is injective on the nodes, rename_nodes gives a PDAG whose nodes, arcs, edges and known arcs are the renamed ones, with consistent views; a node without a name raises KeyError.", "quantifier": "all PDAGs, all injective dictionaries, all iteration orders", "why_tests_cant": "known arcs are not visible in any view; their loss shows only in later orientation steps", "anchors": ["graphical_models/classes/dags/pdag.py:PDAG.rename_nodes"]}
{"id": "C183", "title": "Conversions to networkx and back give the same graph", "statement": "from_nx(g.to_nx()) equals g for DAGs, undirected graphs and PDAGs without arcs; from_nx(h).to_nx() equals h for an acyclic DiGraph or a Graph h; a cyclic DiGraph raises.", "quantifier": "all graphs, all iteration orders", "why_tests_cant": "the constructors insert the arcs one by one with checks; isolated nodes and cycles are rare in examples", "anchors": ["graphical_models/classes/dags/dag.py:DAG.from_nx", "graphical_models/classes/dags/dag.py:DAG.to_nx", "graphical_models/classes/undirected/undirected_graph.py:UndirectedGraph.from_nx", "graphical_models/classes/undirected/undirected_graph.py:UndirectedGraph.to_nx", "graphical_models/classes/dags/pdag.py:PDAG.from_nx", "graphical_models/classes/dags/pdag.py:PDAG.to_nx"]}
{"id": "C184", "title": "DiscreteDAGTorch.get_marginals and get_marginals_torch return the marginal distribution", "statement": "For a DiscreteDAGTorch whose conditional tables are distributions with matching shapes, and a non-empty list of distinct nodes: get_marginals(nodes) terminates without error and returns a table whose shape lists the numbers of values of the nodes in the given order and whose entries are the marginal probabilities (including probabilities below 1e-10); with log=True the entries are their logarithms (-inf for zero); get_marginals_torch(nodes) returns the same table of probabilities. For an empty list both raise an error.", "quantifier": "all proper networks over any node type, all non-empty lists of distinct nodes, all iteration orders of sets, exact arithmetic", "why_tests_cant": "the elimination depends on the ancestral subgraph, on the topological order and on the set iteration order; very small probabilities do not occur in tests", "anchors": ["graphical_models/classes/dags/discrete_dag_torch.py:DiscreteDAGTorch.get_marginals", "graphical_models/classes/dags/discrete_dag_torch.py:DiscreteDAGTorch.get_marginals_torch", "graphical_models/classes/dags/discrete_dag_torch.py:no_warn_log", "graphical_models/classes/dags/discrete_dag_torch.py:add_variable", "graphical_models/classes/dags/discrete_dag_torch.py:marginalize", "graphical_models/classes/dags/discrete_dag_torch.py:repeat_dimensions"]}
{"id": "C185", "title": "predict_from_parents is the conditional mean of a node given its parents", "statement": "For a GaussDAG on any list of distinct nodes, g.predict_from_parents(v, values) with the values of the parents in the order of g.parents_of(v) returns the sum of weight times value plus the bias of v; a wrong number of values raises ValueError and an unknown node KeyError. On nodes 0..n-1, applied to samples from g.sample() with independent noise, it is the conditional expectation of the node given its parents.", "quantifier": "all GaussDAGs whose arcs are the nonzero weights, all nodes, all values, all iteration orders, all independent integrable noise distributions with the given means", "why_tests_cant": "a wrong order of the coefficients is only visible for several parents with different weights, and a wrong row or column only for node lists other than 0..n-1; a conditional expectation cannot be tested exactly", "anchors": ["graphical_models/classes/dags/gaussdag.py:GaussDAG.predict_from_parents"]}
{"id": "C186", "title": "normalize_weights keeps the skeleton and the correlation matrix and makes all variances one", "statement": "For a GaussDAG on nodes 0..n-1 with positive variances, g.normalize_weights() raises nothing and returns a GaussDAG with the same arcs and the same correlation matrix in which every node has marginal variance one (docstring).", "quantifier": "all GaussDAGs on nodes 0..n-1", "why_tests_cant": "the method is not called in the test suite; that it fails depends on the direction of the arcs relative to the labels", "anchors": ["graphical_models/classes/dags/gaussdag.py:GaussDAG.normalize_weights"]}
{"id": "C187", "title": "round_weights changes only the weights, by at most half a unit of the last decimal", "statement": "g.round_weights(d) raises nothing and returns a GaussDAG with the same node list, biases and variances; each weight is a multiple of 10**-d at distance at most 0.5 * 10**-d from the old weight (an even multiple if it lies halfway between two multiples), no arc is added and the graph is acyclic.", "quantifier": "all GaussDAGs on nodes 0..n-1, all numbers of decimals, exact arithmetic", "why_tests_cant": "rounding at ties, and attributes that are silently reset, need exact comparison on many inputs", "anchors": ["graphical_models/classes/dags/gaussdag.py:GaussDAG.round_weights"]}
{"id": "C188", "title": "GaussDAG.remove_node leaves a consistent graph", "statement": "g.remove_node(v) removes v and its arcs from the graph and from the node list; the weight matrix, the variances, the biases and the index of the nodes are those of the remaining nodes, so that further methods work.", "quantifier": "all GaussDAGs, all nodes, sequences of removals", "why_tests_cant": "one removal looks right for nodes 0..n-1; the damage shows only in later calls or for other labels", "anchors": ["graphical_models/classes/dags/gaussdag.py:GaussDAG.remove_node"]}
{"id": "C189", "title": "GaussDAG.add_node adds an isolated node and keeps the weights", "statement": "g.add_node(v) for a new node v appends v to the node list and adds it to the graph; the weights between the old nodes do not change and the weights of v are zero.", "quantifier": "all GaussDAGs, all new nodes", "why_tests_cant": "the method is not called in the test suite", "anchors": ["graphical_models/classes/dags/gaussdag.py:GaussDAG.add_node"]}
{"id": "C190", "title": "cholesky_no_permutation factors a positive definite matrix", "statement": "cholesky_no_permutation(M) for a positive definite matrix M returns (A, d) with A strictly lower triangular, d positive and M = (I - A) diag(d) (I - A)^T; for a symmetric matrix that is not positive definite it raises LinAlgError.", "quantifier": "all symmetric matrices of all sizes, exact arithmetic", "why_tests_cant": "the clean-up of small entries is invisible on matrices with entries of ordinary size", "anchors": ["graphical_models/classes/dags/gaussdag.py:cholesky_no_permutation"]}
{"id": "C191", "title": "CamDAG.conditional_mean returns the conditional expectation given the conditioning nodes", "statement": "For a CamDAG with independent noise of mean zero and a list of conditioning nodes that contains the parents of its members, conditional_mean(values, nodes) returns for every node the conditional expectation of its value under sample() given the conditioning nodes; it needs no more attributes than sample(). With check_valid=True it raises AssertionError if a parent of a conditioning node is missing from the list.", "quantifier": "all additive models, conditioning lists and values", "why_tests_cant": "conditional expectations cannot be checked exactly on samples; the method is not called in the test suite", "anchors": ["graphical_models/classes/dags/camdag.py:CamDAG.conditional_mean"]}
{"id": "C192", "title": "Mixture interventions draw independent samples from the mixture", "statement": "BinaryIntervention(a, b, p).sample(k) and MultinomialIntervention(pvals, ivs).sample(k) return k independent draws from the mixture of the distributions of the components with the given weights, if the components return independent draws.", "quantifier": "all component distributions (on any space), all weights, all sample sizes", "why_tests_cant": "independence and exact laws cannot be observed on samples; errors in the bookkeeping of positions keep the marginal law of each entry plausible", "anchors": ["graphical_models/classes/interventions/interventions.py:BinaryIntervention.sample", "graphical_models/classes/interventions/interventions.py:MultinomialIntervention.sample"]}
{"id": "C193", "title": "pdf of a perfect intervention is the density of its samples", "statement": "For every perfect intervention whose samples have a density, pdf(vals) returns the array of the values of this density at the entries of vals; the entry for a value does not depend on the other entries.", "quantifier": "all perfect interventions, all arrays", "why_tests_cant": "a wrong scale changes the values only by a factor; the dependence on the rest of the array shows only for arrays with several different entries", "anchors": ["graphical_models/classes/interventions/interventions.py:GaussIntervention.pdf", "graphical_models/classes/interventions/interventions.py:BinaryIntervention.pdf", "graphical_models/classes/interventions/interventions.py:MultinomialIntervention.pdf", "graphical_models/classes/interventions/interventions.py:ConstantIntervention.pdf"]}
{"id": "C194", "title": "ScalingIntervention scales the weights of the parents and the noise", "statement": "ScalingIntervention(factor, noise_factor, mean) on a GaussDAG draws factor times the weighted sum of the parents plus normal noise with the given mean (by default that of the node) and noise_factor times the standard deviation of the node.", "quantifier": "all GaussDAGs, nodes, factors, parent values", "why_tests_cant": "the class is not used in the test suite; the column that is read is right by accident for node lists 0..n-1", "anchors": ["graphical_models/classes/interventions/interventions.py:ScalingIntervention.sample"]}
{"id": "C195", "title": "ShiftIntervention on a SampleDAG adds the shift to the conditional", "statement": "For every conditional that works in SampleDAG.sample, sample_interventional with ShiftIntervention(s) at the node returns the draws of the conditional plus s.", "quantifier": "all conditionals (functions of a two-dimensional array), all samples and shifts", "why_tests_cant": "depends on which array functions the conditional uses", "anchors": ["graphical_models/classes/interventions/interventions.py:ShiftIntervention.sample"]}
{"id": "C196", "title": "Views of the cyclic_graph class agree with its edges after any history; cycles are accepted", "statement": "For the class AncestralGraph of cyclic_graph.py: after a constructor call that returns and any sequence of queries, add_* calls on two different nodes and remove_* calls, returning or raising, parents_of, children_of, spouses_of and neighbors_of describe exactly the three edge sets, two nodes are joined by at most one edge, and nodes with undirected edges have no parents and spouses. No call runs forever, also if there are directed cycles. The constructor accepts every set of arcs without a pair of opposite arcs, including cycles.", "quantifier": "all finite histories, all iteration orders", "why_tests_cant": "the class has no test; histories and orders are unbounded", "anchors": ["graphical_models/classes/cyclic/cyclic_graph.py:AncestralGraph.__init__", "graphical_models/classes/cyclic/cyclic_graph.py:AncestralGraph.add_directed", "graphical_models/classes/cyclic/cyclic_graph.py:AncestralGraph.add_bidirected", "graphical_models/classes/cyclic/cyclic_graph.py:AncestralGraph.add_undirected", "graphical_models/classes/cyclic/cyclic_graph.py:AncestralGraph.remove_node", "graphical_models/classes/cyclic/cyclic_graph.py:AncestralGraph.remove_directed", "graphical_models/classes/cyclic/cyclic_graph.py:AncestralGraph.topological_sort"]}
{"id": "C197", "title": "add_directed of the cyclic_graph class: a failing call leaves the edges unchanged", "statement": "For the class of cyclic_graph.py: a call add_directed(i, j) that raises leaves the three edge sets as they were; a call that returns has added exactly the edge and the graph has no directed cycle.", "quantifier": "all reachable objects, including those with directed cycles, all orders", "why_tests_cant": "needs an object that already holds a cycle, or a conflict between a directed path and a bidirected edge", "anchors": ["graphical_models/classes/cyclic/cyclic_graph.py:AncestralGraph.add_directed", "graphical_models/classes/cyclic/cyclic_graph.py:AncestralGraph._add_directed", "graphical_models/classes/cyclic/cyclic_graph.py:AncestralGraph.remove_directed"]}
{"id": "C198", "title": "msep and msep_from_given of the cyclic_graph class are right, also with directed cycles", "statement": "For the class of cyclic_graph.py: msep(A, B, C) returns True exactly if every walk from A to B is blocked by C (colliders open if they are ancestors of C), msep_from_given(A, C) returns exactly the nodes outside C that are separated from A; both terminate for all graphs the class can hold, including graphs with directed cycles.", "quantifier": "all reachable objects, all node sets A disjoint from C, all orders", "why_tests_cant": "no test uses the class; with cycles the search runs through states repeatedly", "anchors": ["graphical_models/classes/cyclic/cyclic_graph.py:AncestralGraph.msep", "graphical_models/classes/cyclic/cyclic_graph.py:AncestralGraph.msep_from_given", "graphical_models/classes/cyclic/cyclic_graph.py:AncestralGraph._is_collider", "graphical_models/classes/cyclic/cyclic_graph.py:AncestralGraph._add_upstream"]}
{"id": "C199", "title": "vstructures of the cyclic_graph class returns the unshielded colliders", "statement": "For the class of cyclic_graph.py: vstructures() returns exactly the triples (a, v, c) with a, c sorted such that a and c are not adjacent and both have an arrowhead at v.", "quantifier": "all reachable objects, all iteration orders of the sets of parents and spouses", "why_tests_cant": "depends on the iteration order of sets; with small integers CPython iterates in increasing order and nothing is noticed", "anchors": ["graphical_models/classes/cyclic/cyclic_graph.py:AncestralGraph.vstructures"]}
{"id": "C200", "title": "discriminating_paths of the cyclic_graph class finds all discriminating paths", "statement": "For the class of cyclic_graph.py and every ancestral graph: discriminating_paths() terminates and returns a dictionary whose keys are exactly the discriminating paths, with the value 'c' exactly if the node before the last is a collider.", "quantifier": "all ancestral graphs, all histories that lead to them, all orders", "why_tests_cant": "depends on the order in which keys have been inserted into a private dictionary, also by queries", "anchors": ["graphical_models/classes/cyclic/cyclic_graph.py:AncestralGraph.discriminating_paths", "graphical_models/classes/cyclic/cyclic_graph.py:AncestralGraph.colliders"]}
{"id": "C201", "title": "markov_equivalent of the cyclic_graph class decides Markov equivalence", "statement": "For the class of cyclic_graph.py and maximal ancestral graphs with the same nodes: markov_equivalent(other) returns True exactly if the two graphs have the same m-separations.", "quantifier": "all pairs of maximal ancestral graphs, all histories and orders", "why_tests_cant": "equality of exponentially many separation statements; the outcome depends on set orders and the history of queries", "anchors": ["graphical_models/classes/cyclic/cyclic_graph.py:AncestralGraph.markov_equivalent"]}
{"id": "C202", "title": "legitimate_mark_changes of the cyclic_graph class lists exactly the mark changes within the equivalence class", "statement": "For the class of cyclic_graph.py and every directed maximal ancestral graph: legitimate_mark_changes() returns the directed edges that may become bidirected and the ordered pairs whose bidirected edge may become directed such that the result is a Markov equivalent directed maximal ancestral graph. With undirected edges it raises ValueError.", "quantifier": "all directed maximal ancestral graphs, all orders", "why_tests_cant": "whether a change keeps the equivalence class concerns all separation statements", "anchors": ["graphical_models/classes/cyclic/cyclic_graph.py:AncestralGraph.legitimate_mark_changes"]}
{"id": "C203", "title": "copy, equality and matrix round trip of the cyclic_graph class", "statement": "For the class of cyclic_graph.py: copy() returns an equal object with the same views; == holds exactly if nodes and the three edge sets agree; for nodes 0..n-1 from_amat(to_amat()) is equal to the object and the matrix has the entries 2/3, 2/2, 3/3 of the edges and 0 elsewhere. All this also with directed cycles.", "quantifier": "all reachable objects, all orders", "why_tests_cant": "no test; ranges over all graphs", "anchors": ["graphical_models/classes/cyclic/cyclic_graph.py:AncestralGraph.copy", "graphical_models/classes/cyclic/cyclic_graph.py:AncestralGraph.__eq__", "graphical_models/classes/cyclic/cyclic_graph.py:AncestralGraph.to_amat", "graphical_models/classes/cyclic/cyclic_graph.py:AncestralGraph.from_amat"]}
{"id": "C204", "title": "to_maximal and ancestors_of of the cyclic_graph class", "statement": "For the class of cyclic_graph.py: on every ancestral graph to_maximal() returns, adds bidirected edges exactly between non-adjacent nodes that no set of other nodes separates, and the result is ancestral and maximal with the same separations. ancestors_of(v, exclude_arcs) terminates on every graph, also with directed cycles, and returns the nodes with a directed path to v without excluded edges.", "quantifier": "all ancestral graphs; all reachable objects, nodes, sets of arcs and orders", "why_tests_cant": "ranges over all conditioning sets and all graphs", "anchors": ["graphical_models/classes/cyclic/cyclic_graph.py:AncestralGraph.to_maximal", "graphical_models/classes/cyclic/cyclic_graph.py:AncestralGraph.ancestors_of", "graphical_models/classes/cyclic/cyclic_graph.py:AncestralGraph._add_ancestors"]}
{"id": "C205", "title": "rand_additive_basis calibrates the share of variance that comes from the parents", "statement": "If rand_additive_basis(dag, basis, r2_dict, ...) returns without infinite or undefined coefficients, the result has the nodes and arcs of dag; for the noise values drawn during the call, each column is a nonnegative multiple of the weighted sum of the chosen basis functions at the parents plus a nonnegative multiple of the noise, the first part has variance r2 and the second 1 - r2 (for nodes without parents the noise has variance one); the mean and noise functions of the result use these multiples, weights and basis functions, with the parents in the iteration order of dag.parents_of(node).", "quantifier": "all DAGs, r2 dictionaries, basis functions, weights, noise values and iteration orders (exact arithmetic)", "why_tests_cant": "the function is not called in the test suite; the calibrated variances hold only for the internal sample and are hidden by sampling error elsewhere", "anchors": ["graphical_models/rand/graphs.py:rand_additive_basis", "graphical_models/rand/graphs.py:_cam_mean_function", "graphical_models/rand/graphs.py:create_scaled_noise_function"]}
{"id": "C206", "title": "Samples of the result of rand_additive_basis follow the calibrated equations", "statement": "sample() of the returned CamDAG satisfies the additive equations with the calibrated coefficients, each parent with the weight drawn for it; with the noise values of the calibration the variances are the prescribed ones.", "quantifier": "all DAGs, parameters, draws and iteration orders of the sets of parents in both graphs", "why_tests_cant": "the two sets of parents usually have the same iteration order on small integer labels", "anchors": ["graphical_models/rand/graphs.py:rand_additive_basis", "graphical_models/rand/graphs.py:_cam_mean_function", "graphical_models/classes/dags/camdag.py:CamDAG.sample"]}
{"id": "C207", "title": "rand_additive_basis returns for all proper r2 values and reports a missing one", "statement": "With r2_dict=None, a single number in (0, 1], or a dictionary with such an entry for every node with parents, rand_additive_basis raises nothing, and it returns if no noise and no weighted sum of basis functions is constant on the drawn values. If an entry is missing, it raises the Exception saying that r2_dict does not specify a desired R^2.", "quantifier": "all DAGs, r2 dictionaries, draws and iteration orders", "why_tests_cant": "the error branch is never run", "anchors": ["graphical_models/rand/graphs.py:rand_additive_basis"]}
{"id": "C208", "title": "to_pgm returns a pgmpy network with the same distribution", "statement": "For a DiscreteDAG with nonempty alphabets, to_pgm() (and to_pgm(as_string=True) if the names of the nodes are distinct strings) raises nothing and returns a network with the same nodes and arcs in which every node has a table with its parents as evidence and an axis of the right length for each variable; each assignment of state numbers has the same probability in both.", "quantifier": "all DiscreteDAGs, iteration orders and renamings", "why_tests_cant": "reshaping mistakes only show for nodes with several parents with different numbers of states", "anchors": ["graphical_models/classes/dags/discrete_dag.py:DiscreteDAG.to_pgm"]}
{"id": "C209", "title": "from_pgm returns a DiscreteDAG with the same distribution", "statement": "For a pgmpy network in which each node has a table with its parents as evidence, from_pgm(model) returns a DiscreteDAG on 0..n-1 and the list node_order with the same arcs, alphabets 0..K-1 and the same probability for each assignment; in particular from_pgm(d.to_pgm()) has the distribution of d.", "quantifier": "all networks, and all orders in which nodes and predecessors are listed", "why_tests_cant": "the order of predecessors depends on the order in which arcs were inserted; small tests have at most one parent or equal orders", "anchors": ["graphical_models/classes/dags/discrete_dag.py:DiscreteDAG.from_pgm", "graphical_models/classes/dags/discrete_dag.py:DiscreteDAG.to_pgm"]}
{"id": "C210", "title": "DiscreteDAG.fit with a classifier tabulates the classifier", "statement": "DiscreteDAG.fit(dag, data, node_alphabets, method='random_forest' | 'xgboost' | 'logistic') with all data values in the alphabets returns a network on the same graph whose tables are conditional probability tables. A node without parents gets the relative frequencies of its values, a node whose column is constant gets probability one at that value, and every other table holds the predicted class probabilities of the classifier trained on the columns of the parents. Without node_alphabets the alphabets are 0..max.", "quantifier": "all DAGs, data sets, classifiers that return a probability for each class seen in the data, all iteration orders", "why_tests_cant": "a class missing from the training data and an alphabet that is not 0..k-1 change which column a probability lands in", "anchors": ["graphical_models/classes/dags/discrete_dag.py:DiscreteDAG.fit", "graphical_models/classes/dags/discrete_dag.py:extract_conditional", "graphical_models/classes/dags/discrete_dag.py:indicator_conditional"]}
{"id": "C211", "title": "DiscreteDAG.predict_from_parents returns conditional probabilities, one row per query", "statement": "predict_from_parents(node, vals), where each row of vals holds values of the parents of node (in the order of node2parents), returns an array with one row per query; entry i is the conditional probability that node takes its i-th value given these parents' values.", "quantifier": "all discrete networks, nodes, numbers of queries and values in the alphabets", "why_tests_cant": "values are confused with positions only if the alphabet is not 0..k-1; the case of no parents has another shape", "anchors": ["graphical_models/classes/dags/discrete_dag.py:DiscreteDAG.predict_from_parents"]}
{"id": "C212", "title": "get_extended_cov2 rebuilds the extended covariance matrix from the moments", "statement": "For at least two samples, get_extended_cov2(np.cov(samples, rowvar=False), samples.mean(axis=0), len(samples)) equals get_extended_cov(samples): sums of products of columns, column sums and the number of samples. Hence linear_regression_mle gives the same result on both.", "quantifier": "all sample matrices with at least two rows, any number of columns", "why_tests_cant": "an identity between sums for all sizes; off-by-one normalisations vanish for centred data", "anchors": ["graphical_models/utils/core_utils.py:get_extended_cov2", "graphical_models/utils/core_utils.py:get_extended_cov", "graphical_models/utils/core_utils.py:linear_regression_mle"]}
{"id": "C213", "title": "get_conditional_pgmpy returns the conditional distribution, also for repeated nodes", "statement": "get_conditional_pgmpy(marginal_nodes, cond_nodes) without values returns an array with one axis per marginal node followed by one axis per conditioning node. The entry at (y, x) is the probability that marginal_nodes = y given cond_nodes = x whenever x has positive probability; a node in both lists contributes the indicator that its two values agree.", "quantifier": "all discrete networks, lists of distinct nodes, exact inference in pgmpy", "why_tests_cant": "correctness of a chain of reshapes and einops patterns for any number of axes", "anchors": ["graphical_models/classes/dags/discrete_dag.py:DiscreteDAG.get_conditional_pgmpy", "graphical_models/classes/dags/discrete_dag.py:add_repeated_nodes_conditional"]}
{"id": "C214", "title": "get_efficient_influence_function_conditionals returns imset coefficients and conditional means", "statement": "get_efficient_influence_function_conditionals(target, cond, value, ignored) returns one entry for each set with a non-zero coefficient in get_standard_imset(ignored), with that coefficient, and with the array of the expectations of 1{cond = value} * target given the values of the nodes of the set.", "quantifier": "all discrete networks with alphabets 0..k-1, pairs of nodes, ignored sets, iteration orders, exact inference in pgmpy", "why_tests_cant": "depends on which sets the imset contains and on broadcasting over arbitrarily many axes", "anchors": ["graphical_models/classes/dags/discrete_dag.py:DiscreteDAG.get_efficient_influence_function_conditionals", "graphical_models/classes/dags/discrete_dag.py:DiscreteDAG.get_conditional_pgmpy"]}
{"id": "C215", "title": "is_minimal_imap2 gives the verdict of is_minimal_imap and never fails its own validation", "statement": "For a maximal ancestral graph g without undirected edges that is an I-map of h, g.is_minimal_imap2(h, certify, check_imap, validate) terminates without raising for all flags, also validate=True. The verdict is True iff no maximal graph with a proper subset of the edges of g is an I-map of h; a certificate is an edge whose removal leaves a maximal I-map. If g is not an I-map, is_minimal_imap2(h) is (False, None). The verdict with certify=True agrees with is_minimal_imap.", "quantifier": "all maximal ancestral graphs g without undirected edges, all graphs h, all iteration orders and flags", "why_tests_cant": "the method replaces the test of all statements of the smaller graph by one separation query; that this is enough is a theorem about all graphs", "anchors": ["graphical_models/classes/mags/ancestral_graph.py:AncestralGraph.is_minimal_imap2", "graphical_models/classes/mags/ancestral_graph.py:AncestralGraph.is_imap", "graphical_models/classes/mags/ancestral_graph.py:AncestralGraph.is_maximal"]}
{"id": "C216", "title": "is_minimal_imap3 and is_minimal_imap4 give the verdict of is_minimal_imap", "statement": "For a maximal ancestral graph g without undirected edges that is an I-map of h, g.is_minimal_imap3(h) and g.is_minimal_imap4(h) return the verdict of g.is_minimal_imap(h).", "quantifier": "all maximal ancestral graphs g without undirected edges, all graphs h, all iteration orders and flags", "why_tests_cant": "equivalence of different criteria for all graphs", "anchors": ["graphical_models/classes/mags/ancestral_graph.py:AncestralGraph.is_minimal_imap3", "graphical_models/classes/mags/ancestral_graph.py:AncestralGraph.is_minimal_imap4"]}
{"id": "C217", "title": "resolved_quasisinks finds the nodes that can be removed from both graphs", "statement": "g.resolved_quasisinks(h) returns the nodes that can be removed one after another so that each is without children in what is left of g and h and has the same Markov blanket in both. In particular g.resolved_quasisinks(g) is the set of all nodes of an ancestral graph.", "quantifier": "all pairs of ancestral graphs", "why_tests_cant": "a fixed point over all graphs", "anchors": ["graphical_models/classes/mags/ancestral_graph.py:AncestralGraph.resolved_quasisinks"]}
{"id": "C218", "title": "GGM.to_gauss_dag returns an equivalent minimal I-map", "statement": "For a GGM with positive definite precision matrix and an order perm of its nodes, to_gauss_dag(perm) raises nothing and returns a GaussDAG with the same covariance and the same means, whose arcs follow the order, which is an I-map (d-separated nodes have partial correlation zero), and no proper subgraph of which is an I-map.", "quantifier": "all positive definite matrices, all means, all orders of the nodes", "why_tests_cant": "The arc tests condition on the Markov blanket in the graph built so far instead of on all earlier nodes; that this decides the same is a theorem about all positive definite matrices. Tests with the natural order do not see that biases and variances are handed over in the order of the permutation.", "anchors": ["graphical_models/classes/undirected/ggm.py:GGM.to_gauss_dag"]}
{"id": "C219", "title": "The standard imset characterises the Markov equivalence class", "statement": "For two acyclic graphs, get_standard_imset() returns equal dictionaries if and only if markov_equivalent(other) is True. Read as a map from node sets to counts this holds, and then the node sets agree as well; as dictionaries keyed by tuples it fails, because the order of a tuple depends on how the frozenset was filled.", "quantifier": "all pairs of finite DAGs (no common node set assumed), all enumeration orders", "why_tests_cant": "the converse direction excludes an accidental agreement of all counts over infinitely many graph pairs; the order of the tuples only differs for hash collisions", "anchors": ["graphical_models/classes/dags/dag.py:DAG.get_standard_imset", "graphical_models/classes/dags/dag.py:DAG.markov_equivalent"]}
{"id": "C220", "title": "d-separated nodes are conditionally independent in the tables of a DiscreteDAG", "statement": "If dsep(A, B, C) is True then the tables returned by get_marginals satisfy P(A, B, C) P(C) = P(A, C) P(B, C), and get_conditional(A, B + C, method='old') equals get_conditional(A, C, method='old') wherever the condition has positive probability. This holds if no table entry is positive but at most 1e-10; otherwise it fails, because all nodes but the first in the topological order lose their small entries.", "quantifier": "all networks with conditional probability tables (zeros allowed), all disjoint A, B, C, all iteration orders", "why_tests_cant": "relates a graph algorithm to sums over exponentially many assignments of arbitrary real tables; zeros exclude the usual division arguments", "anchors": ["graphical_models/classes/dags/discrete_dag.py:DiscreteDAG.get_marginals", "graphical_models/classes/dags/discrete_dag.py:DiscreteDAG.get_conditional", "graphical_models/classes/dags/dag.py:DAG.dsep"]}
{"id": "C221", "title": "I-maps represent the same discrete distributions", "statement": "If H.is_imap(G) is True (same nodes) then for every DiscreteDAG on G there is one on H with the same alphabets and the same probability of every event; if no table entry is positive but at most 1e-10, its tables are those returned by get_conditional([node], parents, method='old').", "quantifier": "all pairs of DAGs, all conditional probability tables, all iteration orders", "why_tests_cant": "quantifies over all distributions on a graph and needs all separations of the other graph at once", "anchors": ["graphical_models/classes/dags/dag.py:DAG.is_imap", "graphical_models/classes/dags/discrete_dag.py:DiscreteDAG.get_conditional"]}
{"id": "C222", "title": "is_invariant guarantees unchanged conditional distributions", "statement": "If is_invariant(A, I, C) is True (A and C disjoint) then P(A | C) is the same in every two DiscreteDAGs over the graph that differ only in the tables (and possibly fewer parents) of the nodes in I, wherever P(C) is positive in both. In particular, if no table entry is positive but at most 1e-10, get_conditional(A, C, method='old') returns the same rows before and after get_hard_interventional_dag(target, value) when is_invariant(A, {target}, C) is True.", "quantifier": "all DAGs, all conditional probability tables and all changed tables at I, all disjoint A, C, all iteration orders", "why_tests_cant": "quantifies over pairs of arbitrary real tables; relates a reachability algorithm to sums over exponentially many assignments", "anchors": ["graphical_models/classes/dags/dag.py:DAG.is_invariant", "graphical_models/classes/dags/discrete_dag.py:DiscreteDAG.get_hard_interventional_dag", "graphical_models/classes/dags/discrete_dag.py:DiscreteDAG.get_conditional"]}
{"id": "C223", "title": "is_imap decides inclusion of Gaussian families", "statement": "For DAGs G, H on the nodes 0..n-1: H.is_imap(G) is True exactly if every multivariate normal distribution of linear structural equations on G (a GaussDAG with arcs among those of G and positive variances: its covariance and its mean) is also one of a GaussDAG with arcs among those of H. Such weight matrices are accepted by GaussDAG.from_amat, the arcs of the result are arcs of the graph, and `covariance` is that matrix.", "quantifier": "all pairs of DAGs on the same nodes, all weights, biases and positive variances, all iteration orders", "why_tests_cant": "both directions quantify over all distributions on a graph; 'only if' needs a distribution whose vanishing partial correlations are exactly the d-separations", "anchors": ["graphical_models/classes/dags/dag.py:DAG.is_imap", "graphical_models/classes/dags/gaussdag.py:GaussDAG.from_amat", "graphical_models/classes/dags/gaussdag.py:GaussDAG.covariance"]}
{"id": "C224", "title": "dsep is complete: faithful Gaussian distributions exist", "statement": "For every DAG on the nodes 0..n-1 there is a weight matrix such that the GaussDAG made by from_amat (unit variances, any biases) has exactly these arcs and, for all distinct i, j and every set C without them, partial_correlation(i, j, C) is 0 exactly if dsep(i, j, C) is True.", "quantifier": "all DAGs, all pairs of nodes, all conditioning sets, all iteration orders", "why_tests_cant": "a test can only look for dependence at one parameter and one conditioning set at a time; the claim is about all conditioning sets for one parameter on every graph", "anchors": ["graphical_models/classes/dags/dag.py:DAG.dsep", "graphical_models/classes/dags/gaussdag.py:GaussDAG.partial_correlation", "graphical_models/classes/dags/gaussdag.py:GaussDAG.from_amat"]}
{"id": "C225", "title": "markov_equivalent decides equality of Gaussian families", "statement": "For DAGs G, H on the nodes 0..n-1: G.markov_equivalent(H) is True exactly if the multivariate normal distributions of linear structural equations on G and on H are the same.", "quantifier": "all pairs of DAGs on the same nodes, all iteration orders", "why_tests_cant": "equality of two infinite families of distributions", "anchors": ["graphical_models/classes/dags/dag.py:DAG.markov_equivalent", "graphical_models/classes/dags/gaussdag.py:GaussDAG.covariance"]}
{"id": "C226", "title": "Markov equivalent graphs have the same discrete distributions", "statement": "If G.markov_equivalent(H) is True then for every DiscreteDAG on G there is one on H with the same alphabets and the same probability of every event.", "quantifier": "all pairs of DAGs, all conditional probability tables, all iteration orders", "why_tests_cant": "quantifies over all distributions on a graph", "anchors": ["graphical_models/classes/dags/dag.py:DAG.markov_equivalent", "graphical_models/classes/dags/discrete_dag.py:DiscreteDAG"]}
{"id": "C227", "title": "Every DAG has faithful tables", "statement": "For every DAG G there is a DiscreteDAG on G with two values for each node such that for all distinct nodes i, j and all lists C of other nodes the tables of get_marginals satisfy P(i,j,C) P(C) = P(i,C) P(j,C) for all values exactly if G.dsep(i, j, C) is True.", "quantifier": "all DAGs, all pairs of nodes and conditioning lists, all iteration orders", "why_tests_cant": "existence of tables with exactly the independences of the graph; one must choose parameters outside finitely many zero sets of polynomials", "anchors": ["graphical_models/classes/dags/dag.py:DAG.dsep", "graphical_models/classes/dags/discrete_dag.py:DiscreteDAG.get_marginals"]}
{"id": "C228", "title": "is_imap decides inclusion of discrete models", "statement": "For DAGs G, H on the same nodes: H.is_imap(G) is True exactly if for every DiscreteDAG on G there is one on H with the same alphabets and the same probability of every event.", "quantifier": "all pairs of DAGs on the same nodes, all conditional probability tables, all iteration orders", "why_tests_cant": "inclusion of two infinite families of distributions", "anchors": ["graphical_models/classes/dags/dag.py:DAG.is_imap", "graphical_models/classes/dags/discrete_dag.py:DiscreteDAG"]}
{"id": "C229", "title": "markov_equivalent decides equality of discrete models", "statement": "For all DAGs G, H: G.markov_equivalent(H) is True exactly if G and H have the same nodes and the DiscreteDAGs on G and on H have the same alphabets and distributions.", "quantifier": "all pairs of DAGs, all conditional probability tables, all iteration orders", "why_tests_cant": "equality of two infinite families of distributions", "anchors": ["graphical_models/classes/dags/dag.py:DAG.markov_equivalent", "graphical_models/classes/dags/discrete_dag.py:DiscreteDAG"]}
{"id": "C230", "title": "is_invariant decides whether a conditional distribution is invariant", "statement": "For disjoint A, C and a set I of nodes: is_invariant(A, I, C) is True exactly if P(A | C) is the same in every two DiscreteDAGs on the graph with equal alphabets and equal tables at the nodes outside I, wherever P(C) is positive in both. So whenever it answers False there are two such networks in which P(A | C) differs.", "quantifier": "all DAGs, all I, all disjoint A, C, all iteration orders; over all pairs of networks", "why_tests_cant": "for the False answers two sets of tables with different conditional probabilities have to exist for every graph", "anchors": ["graphical_models/classes/dags/dag.py:DAG.is_invariant", "graphical_models/classes/dags/discrete_dag.py:DiscreteDAG"]}
{"id": "C231", "title": "is_topological and permutation_score agree with the order", "statement": "For an order without repetitions containing the ends of all arcs, is_topological(order) is True exactly if every arc points forward in it, permutation_score(order) is the number of arcs pointing backward, and the score is 0 exactly if the answer is True; topological_sort() always passes with score 0. permutation_score raises KeyError exactly if an end of an arc is missing from the order; is_topological is then not True, and whether it raises KeyError or returns False can depend on the iteration order of the set of arcs.", "quantifier": "all DAGs, all orders, all iteration orders", "why_tests_cant": "the dependence on set iteration order is invisible in a single run; all graphs and all orders", "anchors": ["graphical_models/classes/dags/dag.py:DAG.is_topological", "graphical_models/classes/dags/dag.py:DAG.permutation_score", "graphical_models/classes/dags/dag.py:DAG.topological_sort"]}
{"id": "C232", "title": "chickering_distance is a metric between shd and 2*shd", "statement": "chickering_distance(G, H) is twice the number of pairs of nodes adjacent in exactly one of the graphs plus the number of reversed arcs; it is symmetric, 0 exactly if the arc sets are equal, satisfies the triangle inequality, lies between shd and 2*shd, and equals shd exactly if the skeletons are equal.", "quantifier": "all triples of DAGs", "why_tests_cant": "triangle inequality over all triples of graphs", "anchors": ["graphical_models/classes/dags/dag.py:DAG.chickering_distance", "graphical_models/classes/dags/dag.py:DAG.shd", "graphical_models/classes/dags/dag.py:DAG.shd_skeleton"]}
{"id": "C233", "title": "markov_equivalent with interventions decides equality of interventional models", "statement": "For DAGs G and H and a list of intervention target sets, each a subset of the nodes, G.markov_equivalent(H, interventions) returns True exactly if G and H have the same nodes and the same families of distributions: every collection consisting of alphabets, one observational distribution and one distribution per target set that conditional probability tables on G produce (where the tables in experiment k differ from the observational ones only at the nodes of target set k, in any way) is also produced by tables on H, and the other way round.", "quantifier": "all pairs of DAGs, all lists of target sets, all alphabets and all probability tables (zero probabilities included), all iteration orders of the sets", "why_tests_cant": "Equality of two families of distributions is a statement about infinitely many tables; tests compare graphs only.", "anchors": ["graphical_models/classes/dags/dag.py:DAG.markov_equivalent", "graphical_models/classes/dags/dag.py:DAG.interventional_cpdag", "graphical_models/classes/dags/discrete_dag.py:DiscreteDAG"]}
{"id": "C234", "title": "markov_equivalent with interventions is also right for perfect interventions", "statement": "The same holds if only perfect interventions are allowed, those after which the values of the targets no longer depend on their parents: G.markov_equivalent(H, interventions) returns True exactly if G and H have the same nodes and produce the same collections of one observational distribution and one distribution per target set.", "quantifier": "all pairs of DAGs, all lists of target sets, all alphabets and all probability tables, all iteration orders of the sets", "why_tests_cant": "Restricting the interventions makes both families smaller, so neither direction follows from the general case; tests compare graphs only.", "anchors": ["graphical_models/classes/dags/dag.py:DAG.markov_equivalent", "graphical_models/classes/dags/dag.py:DAG.interventional_cpdag", "graphical_models/classes/dags/discrete_dag.py:DiscreteDAG"]}
{"id": "C235", "title": "msep is sound and complete for hidden common causes and selection", "statement": "Give every bidirected edge of an ancestral graph a hidden common cause of its ends and every undirected edge a common effect of its ends, on whose value all observations are conditioned. Then for disjoint sets A, B, C of nodes msep(A, B, C) returns True exactly if A and B are independent given C, in the samples with any given values of the common effects, for all probability tables on the resulting DAG. Moreover one set of binary tables has, between single nodes, no other independences than those msep affirms: for every i, j, C with msep(i, j, C) = False the equation P(i,j,C,s) P(C,s) = P(i,C,s) P(j,C,s) fails where all values are one.", "quantifier": "all ancestral graphs, undirected edges included, all disjoint lists A, B, C of nodes, all probability tables (zeros included), all iteration orders", "why_tests_cant": "Tests compare msep with other graph code; its meaning is a statement about all distributions, and the False answers need a distribution for every graph.", "anchors": ["graphical_models/classes/mags/ancestral_graph.py:AncestralGraph.msep", "graphical_models/classes/dags/discrete_dag.py:DiscreteDAG"]}
{"id": "C236", "title": "is_imap of ancestral graphs decides whether all distributions of the other graph satisfy the independences", "statement": "For a maximal ancestral graph g without undirected edges and an ancestral graph h containing its nodes, g.is_imap(h) terminates and returns True exactly if every independence that g.msep affirms holds in all distributions of h with hidden common causes and selection.", "quantifier": "all such pairs of graphs, all probability tables, all iteration orders", "why_tests_cant": "is_imap looks at one statement per pair of nodes; the claim is about all sets and all distributions.", "anchors": ["graphical_models/classes/mags/ancestral_graph.py:AncestralGraph.is_imap", "graphical_models/classes/mags/ancestral_graph.py:AncestralGraph.msep", "graphical_models/classes/dags/discrete_dag.py:DiscreteDAG"]}
{"id": "C237", "title": "markov_equivalent of ancestral graphs decides whether the distributions have the same independences", "statement": "For maximal ancestral graphs g, h on the same nodes, g.markov_equivalent(h) and g.fast_markov_equivalent(h) terminate with the same answer, which is True exactly if for all disjoint A, B, C the independence of A and B given C holds in all distributions of g (with hidden common causes and selection) if and only if it holds in all those of h.", "quantifier": "all pairs of maximal ancestral graphs on the same nodes, undirected edges included, all probability tables, all iteration orders", "why_tests_cant": "A statement about all distributions of two graphs; tests compare finitely many graphs.", "anchors": ["graphical_models/classes/mags/ancestral_graph.py:AncestralGraph.markov_equivalent", "graphical_models/classes/mags/ancestral_graph.py:AncestralGraph.fast_markov_equivalent", "graphical_models/classes/dags/discrete_dag.py:DiscreteDAG"]}
{"id": "C238", "title": "dsep and marginal_mag are sound and complete for all networks", "statement": "For disjoint sets A, B, C of nodes of a DAG, dsep(A, B, C) returns True exactly if A and B are independent given C in all DiscreteDAGs on the graph. For every set of latent nodes, marginal_mag returns an ancestral graph on the observed nodes whose msep returns True for observed A, B, C exactly if A and B are independent given C in all DiscreteDAGs on the original graph.", "quantifier": "all DAGs, all sets of latent nodes, all disjoint lists A, B, C, all probability tables, all iteration orders", "why_tests_cant": "Tests compare separations of two graphs; that no independence is lost needs a distribution for every graph.", "anchors": ["graphical_models/classes/dags/dag.py:DAG.dsep", "graphical_models/classes/dags/dag.py:DAG.marginal_mag", "graphical_models/classes/mags/ancestral_graph.py:AncestralGraph.msep", "graphical_models/classes/dags/discrete_dag.py:DiscreteDAG"]}
{"id": "C239", "title": "to_dag can return every consistent extension", "statement": "A graph is a consistent extension of a PDAG iff `to_dag()` returns it for some iteration order of the set of nodes. If the nodes are iterated from the last to the first node of an extension, `to_dag()` returns exactly this extension.", "quantifier": "for all PDAGs with at most one mark per pair that have a consistent extension, all graphs F, and all other iteration orders", "why_tests_cant": "The result depends on the iteration order of a set; a test sees one order per run.", "anchors": ["graphical_models/classes/dags/pdag.py:PDAG.to_dag"]}
{"id": "C240", "title": "all_dags lists the whole Markov equivalence class", "statement": "For the CPDAG of a DAG, `all_dags()` returns exactly the arc sets of the DAGs that are Markov equivalent to it.", "quantifier": "for all DAGs and all iteration orders of the sets of nodes and of reversible arcs", "why_tests_cant": "Whether a member is found depends on the order in which a set of arcs is iterated; with random orders on small graphs a member is missed about once in many thousand runs.", "anchors": ["graphical_models/classes/dags/pdag.py:PDAG.all_dags", "graphical_models/classes/dags/pdag.py:PDAG.to_dag", "graphical_models/classes/dags/dag.py:DAG.cpdag"]}
{"id": "C241", "title": "The random DAGs follow the announced distribution: an Erd\u0151s\u2013R\u00e9nyi skeleton with a uniformly random order", "statement": "If the coins are independent with probability p and the permutation is uniform, directed_erdos(n, density=p) returns a given DAG on 0..n-1 with probability p^m (1-p)^(N-m) times the fraction of the n! orders that are topological orders of it, where m is its number of arcs and N = n(n-1)/2; with random_order=False a given set of arcs to larger labels has probability p^m (1-p)^(N-m). Consequently each pair of nodes is joined with probability p independently of the other pairs, each of the two arcs of a pair occurs with probability p/2, and with exp_nbrs=e (0 <= e <= n-1, n >= 2) every node has e neighbours on average. Neither density nor exp_nbrs is an AssertionError; exp_nbrs with one node is a ZeroDivisionError. directed_random_graph returns a given orientation of the drawn graph exactly for the orders that are topological orders of it.", "quantifier": "all n, all probabilities, all DAGs, all sets of pairs, all iteration orders of the sets", "why_tests_cant": "A distribution over graphs cannot be read off finitely many samples, and an error in the relabelling leaves each sample a valid DAG.", "anchors": ["graphical_models/rand/graphs.py:directed_erdos", "graphical_models/rand/graphs.py:directed_random_graph", "graphical_models/rand/graphs.py:_coin", "graphical_models/classes/dags/dag.py:DAG.rename_nodes"]}
{"id": "C242", "title": "is_invariant decides which adjustment sets give total effects in a linear model", "statement": "For a DAG D with the nodes 0..n-1, different nodes i, j and a set Z without i, j and descendants of i, D.is_invariant([j], {i}, {i} | Z) is True exactly if for every weight matrix on the arcs of D and all positive variances the coefficient of i in regression_coefficients([j], [i, *Z]) is the entry (i, j) of direct_effects(). Adjusting for the parents of i is always valid (j not a parent). The entry (i, j) of direct_effects() is the change of j per unit change of i under sample_interventional_perfect with the same noise.", "quantifier": "every DAG on 0..n-1, all i, j, Z as described, all weights, biases and positive variances", "why_tests_cant": "The quantifier over all weight matrices is infinite, and the 'only if' direction needs a counterexample matrix for every graph and every set that is not valid.", "anchors": ["graphical_models/classes/dags/dag.py:DAG.is_invariant", "graphical_models/classes/dags/gaussdag.py:GaussDAG.regression_coefficients", "graphical_models/classes/dags/gaussdag.py:GaussDAG.direct_effects", "graphical_models/classes/dags/gaussdag.py:GaussDAG.sample_interventional_perfect"]}
{"id": "C243", "title": "Back-door adjustment: hard interventions from observational tables", "statement": "Let D be a DiscreteDAG, t a node and Y, Z disjoint lists of other nodes. If D.is_invariant(Y, {t}, {t} | Z) and D.is_invariant(Z, {t}) are True and every value of Z that is possible is possible together with t = c, then the marginal of Y in D.get_hard_interventional_dag(t, c) is the sum over the values z of Z of D.get_conditional(Y, [t, *Z]) at t = c, z times D.get_marginals(Z) at z. Both answers are True if Z lists the parents of t.", "quantifier": "every proper discrete network, all t, c, Y, Z as described, all values", "why_tests_cant": "The tables are real valued and the graphs unbounded; the formula combines three results of the API for every assignment.", "anchors": ["graphical_models/classes/dags/discrete_dag.py:DiscreteDAG.get_hard_interventional_dag", "graphical_models/classes/dags/discrete_dag.py:DiscreteDAG.get_conditional", "graphical_models/classes/dags/discrete_dag.py:DiscreteDAG.get_marginals", "graphical_models/classes/dags/dag.py:DAG.is_invariant"]}
{"id": "C244", "title": "possible_parents and regressions give exactly the possible total effects", "statement": "For a linear Gaussian model G on a DAG D with the nodes 0..n-1 and P = D.cpdag(): the coefficients of i in G.regression_coefficients([j], [i, *Z]) for Z = P.parents_of(i) | s with s in P.possible_parents(i) (zero if j is in Z) are exactly the entries (i, j) of direct_effects() over all linear models on graphs Markov equivalent to D that have the covariance matrix of G.", "quantifier": "every DAG on 0..n-1, every weight matrix on its arcs and all positive variances, all i != j", "why_tests_cant": "Both sides range over all members of an equivalence class and all of their parameters.", "anchors": ["graphical_models/classes/dags/pdag.py:PDAG.possible_parents", "graphical_models/classes/dags/dag.py:DAG.cpdag", "graphical_models/classes/dags/dag.py:DAG.markov_equivalent", "graphical_models/classes/dags/gaussdag.py:GaussDAG.regression_coefficients", "graphical_models/classes/dags/gaussdag.py:GaussDAG.direct_effects"]}
{"id": "C245", "title": "shd_skeleton of ancestral graphs is a metric on adjacencies; as_hashed determines the graph", "statement": "For ancestral graphs built without errors, shd_skeleton(other) is the number of pairs of nodes adjacent in exactly one of the two graphs. It is symmetric, satisfies the triangle inequality, is zero iff both graphs have the same adjacencies, and is zero whenever markov_equivalent returns True. Two graphs with the same nodes and the same as_hashed() are equal in all their parts.", "quantifier": "all pairs of ancestral graphs in a consistent state", "why_tests_cant": "a metric law concerns all triples of graphs; the docstring speaks of reversals of arcs, which the method does not count", "anchors": ["graphical_models/classes/mags/ancestral_graph.py:AncestralGraph.shd_skeleton", "graphical_models/classes/mags/ancestral_graph.py:AncestralGraph.as_hashed", "graphical_models/classes/mags/ancestral_graph.py:AncestralGraph.markov_equivalent"]}
{"id": "C246", "title": "markov_equivalent with interventions decides equality of Gaussian interventional models", "statement": "For two graphs on 0,\u2026,n-1 and any list of target sets, markov_equivalent(other, interventions) returns True exactly if both graphs explain the same families of normal distributions: one for the undisturbed linear structural equations and one for each experiment, in which the weights, constants and error variances of the targets may change and all other equations stay. The same holds if the interventions are perfect, so that the targets no longer depend on their parents.", "quantifier": "all pairs of graphs, all lists of targets, all covariance matrices and means", "why_tests_cant": "the models are infinite sets of covariance matrices; tests compare graphs, not the distributions they can produce", "anchors": ["graphical_models/classes/dags/dag.py:DAG.markov_equivalent", "graphical_models/classes/dags/dag.py:DAG.interventional_cpdag", "graphical_models/classes/dags/gaussdag.py:GaussDAG.covariance", "graphical_models/classes/dags/gaussdag.py:GaussDAG.from_amat"]}
{"id": "C247", "title": "cpdag and interventional_cpdag show exactly the arcs that distributions identify", "statement": "An arc of cpdag() is an arc of every graph on the same nodes with the same normal distributions (or the same distributions given by tables). The ends of an edge are joined in either direction by some such graphs. For interventional_cpdag the same holds with the distributions before and after interventions on the targets, perfect or not, Gaussian or given by tables.", "quantifier": "all graphs, all lists of targets, all Gaussian and all discrete distributions", "why_tests_cant": "quantifies over all graphs and all distributions they can produce", "anchors": ["graphical_models/classes/dags/dag.py:DAG.cpdag", "graphical_models/classes/dags/dag.py:DAG.interventional_cpdag", "graphical_models/classes/dags/discrete_dag.py:DiscreteDAG.get_marginals", "graphical_models/classes/dags/gaussdag.py:GaussDAG.covariance"]}
{"id": "C248", "title": "The dictionaries parents, children and neighbors have exactly the nodes as keys", "statement": "After the constructor and any sequence of mutator calls (with any outcome) and queries on a DAG, the keys of the dictionaries `parents`, `children` and `neighbors` are exactly the nodes of the graph, the set at each key is the one given by the arcs, and a query (parents_of, children_of, neighbors_of, markov_blanket_of, ancestors_of, descendants_of, is_reversible, topological_sort) changes nothing that a caller can see.", "quantifier": "for all histories of calls, all arguments, all iteration orders", "why_tests_cant": "The dictionaries are defaultdicts, so that reading can write; what is visible depends on which objects were asked about earlier and on calls that failed halfway.", "anchors": ["graphical_models/classes/dags/dag.py:DAG.parents", "graphical_models/classes/dags/dag.py:DAG.children", "graphical_models/classes/dags/dag.py:DAG.neighbors", "graphical_models/classes/dags/dag.py:DAG.parents_of", "graphical_models/classes/dags/dag.py:DAG.remove_node", "graphical_models/utils/core_utils.py:defdict2dict"]}
{"id": "C249", "title": "UndirectedGraph objects do not share state with the caller or with each other", "statement": "An UndirectedGraph behaves like a value: after any sequence of constructions, copies, mutator calls (add_edge, delete_edge, delete_node) and accessor calls (nodes, edges, neighbors, neighbors_of) on any number of graphs, mixed with arbitrary changes the caller makes to sets it passed in or got back, every graph has the nodes, edges, neighbors and degrees that its own mutator calls give it, and every call returns or raises the same as if the caller had changed nothing.", "quantifier": "all interleavings of calls on any number of objects with all changes of returned sets", "why_tests_cant": "aliasing shows only in particular interleavings of calls and changes of returned objects; a test would have to change every returned set between every two calls", "anchors": ["graphical_models/classes/undirected/undirected_graph.py:UndirectedGraph.__init__", "graphical_models/classes/undirected/undirected_graph.py:UndirectedGraph.copy", "graphical_models/classes/undirected/undirected_graph.py:UndirectedGraph.neighbors", "graphical_models/classes/undirected/undirected_graph.py:UndirectedGraph.neighbors_of", "graphical_models/classes/undirected/undirected_graph.py:UndirectedGraph.edges", "graphical_models/classes/undirected/undirected_graph.py:UndirectedGraph.nodes"]}
{"id": "C250", "title": "GaussDAG objects do not share state with the caller or with each other", "statement": "A GaussDAG behaves like a value: after any sequence of constructions, calls of add_node, remove_node and to_dag on any number of GaussDAG objects, and changes the caller makes to its own lists, every object is in the state its own calls give it, the caller's lists are as the caller left them, and every call returns or raises accordingly.", "quantifier": "all interleavings of calls on any number of objects and of changes of lists by the caller", "why_tests_cant": "sharing shows only if a list is used twice or after the construction; tests construct one graph per list", "anchors": ["graphical_models/classes/dags/gaussdag.py:GaussDAG.__init__", "graphical_models/classes/dags/gaussdag.py:GaussDAG.add_node", "graphical_models/classes/dags/gaussdag.py:GaussDAG.remove_node", "graphical_models/classes/dags/gaussdag.py:GaussDAG.to_dag"]}
{"id": "C251", "title": "GaussDAG.to_dag returns the graph of the nonzero weights", "statement": "For a GaussDAG made from distinct nodes and a dictionary of weights between them, to_dag() returns a DAG with these nodes and exactly the arcs of nonzero weight if these form no cycle; otherwise it raises.", "quantifier": "all node lists, weight dictionaries (explicit zeros included) and iteration orders", "why_tests_cant": "zero weights and cyclic weight matrices are accepted by the constructor; only special inputs show it", "anchors": ["graphical_models/classes/dags/gaussdag.py:GaussDAG.to_dag", "graphical_models/classes/dags/gaussdag.py:GaussDAG.__init__"]}
{"id": "C252", "title": "DAG objects do not share state with the caller or with each other", "statement": "A DAG behaves like a value: after any sequence of constructions, copies, mutator calls (add_node, add_arc, add_arcs_from, remove_arc, remove_arcs_from, reverse_arc, remove_node) and reads of nodes, arcs, parents, children, neighbors, parents_of, children_of, neighbors_of on any number of DAG objects, and changes the caller makes to sets passed to the constructor or returned by these, every object is in the state its own calls give it and every call returns or raises accordingly.", "quantifier": "all interleavings of calls on any number of objects and of changes of sets by the caller, raising calls included", "why_tests_cant": "sharing shows only if a returned set is changed or an original is changed after it was copied; tests read the sets once", "anchors": ["graphical_models/classes/dags/dag.py:DAG.__init__", "graphical_models/classes/dags/dag.py:DAG.copy", "graphical_models/classes/dags/dag.py:DAG.nodes", "graphical_models/classes/dags/dag.py:DAG.arcs", "graphical_models/classes/dags/dag.py:DAG.parents", "graphical_models/classes/dags/dag.py:DAG.children", "graphical_models/classes/dags/dag.py:DAG.neighbors", "graphical_models/classes/dags/dag.py:DAG.parents_of", "graphical_models/classes/dags/dag.py:DAG.children_of", "graphical_models/classes/dags/dag.py:DAG.neighbors_of", "graphical_models/classes/dags/dag.py:DAG.add_arc", "graphical_models/classes/dags/dag.py:DAG.add_arcs_from", "graphical_models/classes/dags/dag.py:DAG.remove_arc", "graphical_models/classes/dags/dag.py:DAG.remove_node", "graphical_models/utils/core_utils.py:defdict2dict"]}
{"id": "C253", "title": "AncestralGraph.remove_node removes every node without an exception", "statement": "After the constructor and any sequence of mutator calls and queries on an AncestralGraph, with any outcome, remove_node(v) of a node v returns without raising and leaves the graph without v and its edges, with consistent views; for anything else it raises KeyError (nothing with ignore_error=True) and changes nothing.", "quantifier": "all histories of calls (edges added between different nodes), all nodes, all iteration orders", "why_tests_cant": "whether it raises depends on which dictionary entries earlier calls and queries happened to create, not on the graph", "anchors": ["graphical_models/classes/mags/ancestral_graph.py:AncestralGraph.remove_node", "graphical_models/classes/mags/ancestral_graph.py:AncestralGraph.__init__", "graphical_models/classes/mags/ancestral_graph.py:AncestralGraph.copy"]}
{"id": "C254", "title": "GGM objects do not share arrays with the caller", "statement": "A GGM behaves like a value: after any sequence of constructions (GGM, from_covariance), reads of covariance, correlation and partial_correlation on any number of GGMs, and changes the caller makes to arrays it passed or was returned, every statement gives what it would give if arrays were passed by value.", "quantifier": "all interleavings of statements, all matrices, all iteration orders", "why_tests_cant": "sharing shows only if an array is changed after it was passed or returned, for the right one of several caches", "anchors": ["graphical_models/classes/undirected/ggm.py:GGM.__init__", "graphical_models/classes/undirected/ggm.py:GGM.from_covariance", "graphical_models/classes/undirected/ggm.py:GGM.covariance", "graphical_models/classes/undirected/ggm.py:GGM.correlation", "graphical_models/classes/undirected/ggm.py:GGM.partial_correlation"]}
{"id": "C255", "title": "A Gaussian DAG is affected only by its own methods: arrays it returned are the caller's", "statement": "Changing an array returned by weight_mat, precision, covariance or correlation of a GaussDAG has no effect on the object: every later result of that object and of every other one is what the constructor arguments and the calls on that object alone give.", "quantifier": "for all sequences of constructions, set_arc_weight/set_node_variance/set_node_bias calls, queries and changes of arrays, interleaved over any number of objects, and all entries written", "why_tests_cant": "a missing copy shows only if the returned array is changed afterwards, for the one property of four that returns its cache", "anchors": ["graphical_models/classes/dags/gaussdag.py:GaussDAG.weight_mat", "graphical_models/classes/dags/gaussdag.py:GaussDAG.precision", "graphical_models/classes/dags/gaussdag.py:GaussDAG.covariance", "graphical_models/classes/dags/gaussdag.py:GaussDAG.correlation", "graphical_models/classes/dags/gaussdag.py:GaussDAG.partial_correlation"]}
{"id": "C256", "title": "The mutators and the topological sort end in every state", "statement": "`topological_sort` of `DAG` and `AncestralGraph` returns or raises after finitely many steps whatever the state of the object is: with directed cycles (`check_acyclic=False`), after calls that raised half way, with views that disagree. Hence the constructor of `DAG`, every mutator of `DAG`, `AncestralGraph` and the `cyclic_graph` class, and `set_arc_weight` of `GaussDAG` end, in any sequence of calls.", "quantifier": "all states of the objects, all sequences of calls with all arguments, all iteration orders", "why_tests_cant": "A recursion that does not end shows only in the states that cause it; no finite set of graphs covers all of them.", "anchors": ["graphical_models/classes/dags/dag.py:DAG.topological_sort", "graphical_models/classes/dags/dag.py:DAG._mark_children_visited", "graphical_models/classes/dags/dag.py:DAG.add_arc", "graphical_models/classes/dags/dag.py:DAG.add_arcs_from", "graphical_models/classes/dags/dag.py:DAG.reverse_arc", "graphical_models/classes/mags/ancestral_graph.py:AncestralGraph.topological_sort", "graphical_models/classes/mags/ancestral_graph.py:AncestralGraph.add_directed", "graphical_models/classes/dags/gaussdag.py:GaussDAG.set_arc_weight"]}
{"id": "C257", "title": "Mutators inherited by DiscreteDAG leave queries in agreement with the tables", "statement": "DiscreteDAG inherits the mutators of DAG. After any successful calls of add_arc, add_arcs_from, remove_arc and reverse_arc between its nodes, sample() still draws from the joint distribution of the conditional tables, get_marginals(nodes) still returns its marginals, and dsep(A, B, C) answers True only if A and B are independent given C.", "quantifier": "all DiscreteDAGs with proper tables, all sequences of calls, all iteration orders, all lists of nodes", "why_tests_cant": "Tests of DiscreteDAG do not call inherited mutators; after reverse_arc sampling succeeds silently with wrong values.", "anchors": ["graphical_models/classes/dags/discrete_dag.py:DiscreteDAG", "graphical_models/classes/dags/discrete_dag.py:DiscreteDAG.sample", "graphical_models/classes/dags/discrete_dag.py:DiscreteDAG.get_marginals", "graphical_models/classes/dags/dag.py:DAG.add_arc", "graphical_models/classes/dags/dag.py:DAG.add_arcs_from", "graphical_models/classes/dags/dag.py:DAG.remove_arc", "graphical_models/classes/dags/dag.py:DAG.reverse_arc"]}
{"id": "C258", "title": "GaussDAG.set_arc_weights and add_arcs_from keep weights and arcs in agreement, or raise and change nothing", "statement": "On a GaussDAG whose arcs are the pairs of nonzero weight, set_arc_weights(d) for a dict d between nodes of the graph raises nothing if the new graph is acyclic, sets the weights of d and no others, keeps biases and variances, and afterwards the arcs are the pairs of nonzero weight; add_arcs_from(arcs) adds the arcs with weight 1. A dict with an unknown node raises KeyError, weights that give a directed cycle raise CycleError, and in both cases nothing has changed.", "quantifier": "all GaussDAGs, all dictionaries of weights and sets of arcs, all iteration orders", "why_tests_cant": "zero weights remove arcs through another overridden method, new arcs go through a set with any order; tests set weights one at a time", "anchors": ["graphical_models/classes/dags/gaussdag.py:GaussDAG.set_arc_weights", "graphical_models/classes/dags/gaussdag.py:GaussDAG.add_arcs_from", "graphical_models/classes/dags/gaussdag.py:GaussDAG.remove_arc", "graphical_models/classes/dags/dag.py:DAG.remove_arcs_from", "graphical_models/classes/dags/dag.py:DAG.add_arcs_from"]}
{"id": "C259", "title": "DiscreteDAG objects do not share their dictionary of tables", "statement": "A DiscreteDAG behaves like a value: after any sequence of constructions, copy(), get_hard_interventional_dag() and set_conditional() calls on any number of objects and changes the caller makes to dictionaries it passed as conditionals or read off an object, every query of an object gives what the constructor arguments and the calls on that object alone give.", "quantifier": "all interleavings of statements over any number of objects, all tables, all iteration orders", "why_tests_cant": "sharing shows only if one dictionary is used for two objects, or changed after it was passed", "anchors": ["graphical_models/classes/dags/discrete_dag.py:DiscreteDAG.__init__", "graphical_models/classes/dags/discrete_dag.py:DiscreteDAG.set_conditional", "graphical_models/classes/dags/discrete_dag.py:DiscreteDAG.copy", "graphical_models/classes/dags/discrete_dag.py:DiscreteDAG.get_hard_interventional_dag"]}
{"id": "C260", "title": "random_max returns each best key with the same probability", "statement": "random_max(d) returns a key of the nonempty dictionary d whose value is the largest (smallest with minimize=True), each of these keys with the same probability; for the empty dictionary it raises ValueError.", "quantifier": "all dictionaries with totally ordered values, both settings of minimize, all random draws", "why_tests_cant": "a wrong tie break or a key that is drawn too often does not show in single runs", "anchors": ["graphical_models/utils/core_utils.py:random_max"]}
{"id": "C261", "title": "Importance sampling converges to the conditional distribution", "statement": "For every DiscreteDAG, marginal nodes, conditioning nodes and list of tuples of their values, the tensors returned by get_conditional_importance_sampling converge with probability one, as nparticles grows, to the conditional distributions of the marginal nodes given the tuples of positive probability, and the second dictionary converges to the probabilities of the tuples divided by their sum. Without cond_values all tuples of values are used.", "quantifier": "all DiscreteDAGs, lists of marginal and conditioning nodes, lists of tuples of values, independent uniform random numbers; limits for the number of particles", "why_tests_cant": "tests see finitely many particles and cannot tell a slow convergence from a wrong limit", "anchors": ["graphical_models/classes/dags/discrete_dag.py:DiscreteDAG.get_conditional_importance_sampling", "graphical_models/classes/dags/discrete_dag.py:DiscreteDAG.weighted_samples"]}
{"id": "C262", "title": "Setters of the bias and the variance of a node change only that node", "statement": "set_node_bias(i, x) and set_node_variance(i, x) of a GaussDAG with node i set the bias resp. variance of node i, and change no other bias or variance, no weight, no arc and no label.", "quantifier": "all GaussDAGs, all nodes, all values", "why_tests_cant": "tests use nodes 0, 1, ..., where labels and positions agree, and look at the changed entry only", "anchors": ["graphical_models/classes/dags/gaussdag.py:GaussDAG.set_node_bias", "graphical_models/classes/dags/gaussdag.py:GaussDAG.set_node_variance", "graphical_models/classes/dags/gaussdag.py:GaussDAG.set_node_mean"]}
{"id": "C263", "title": "direct_effect returns a number for each other node", "statement": "For every CamDAG and all distinct conditioning nodes of it, direct_effect(cond_values, cond_nodes) raises nothing and returns an array of numbers with one column for each node that is not a conditioning node.", "quantifier": "all lists of nodes, all lists of distinct conditioning nodes", "why_tests_cant": "whether the call raises depends on the order of the nodes in the list", "anchors": ["graphical_models/classes/dags/camdag.py:CamDAG.direct_effect"]}
{"id": "C264", "title": "Fitting a DiscreteDAG to its own samples is consistent", "statement": "For every DiscreteDAG, DiscreteDAG.fit with its graph and alphabets (methods mle and add_one_mle, any alpha), applied to independent rows of its sample, succeeds and gives tables that converge with probability one, as the number of rows grows, to the tables of the DiscreteDAG wherever the values of the parents have positive probability.", "quantifier": "all DiscreteDAGs, all orders of iteration, any amount added to the counts, independent uniform random numbers; limits for the number of rows", "why_tests_cant": "tests see finitely many rows and cannot tell slow convergence from a wrong limit", "anchors": ["graphical_models/classes/dags/discrete_dag.py:DiscreteDAG.fit", "graphical_models/classes/dags/discrete_dag.py:DiscreteDAG.sample"]}
{"id": "C265", "title": "Fitting a GaussDAG to its own samples is consistent", "statement": "For every GaussDAG with positive variances and every DAG on the same nodes that has all its arcs, GaussDAG.fit_mle(dag, g.sample(N)) raises nothing, and with probability one, as N grows, the fitted weights, biases and variances converge to those of g.", "quantifier": "all GaussDAGs with positive variances, all DAGs with more arcs, all orders of iteration, independent normal random numbers; limits for the number of samples", "why_tests_cant": "tests see finitely many samples, compare with a tolerance, and use the true graph only", "anchors": ["graphical_models/classes/dags/gaussdag.py:GaussDAG.fit_mle", "graphical_models/classes/dags/gaussdag.py:GaussDAG.sample", "graphical_models/utils/core_utils.py:linear_regression_mle", "graphical_models/utils/core_utils.py:get_extended_cov"]}
{"id": "C266", "title": "The moments of many samples of a GaussDAG converge to its covariance and means", "statement": "For every newly made GaussDAG g on the nodes 0, ..., n-1, get_extended_cov(g.sample(N)) / N converges with probability one, as N grows: the entries of two variables to g.covariance plus the product of their means, those of a variable and the constant to the mean, where the means solve the equations of the means.", "quantifier": "all weights without directed cycle, all biases, all nonnegative variances, all topological orders, independent normal random numbers; limits for the number of samples", "why_tests_cant": "tests see finitely many samples and compare with a tolerance; covariance and samples are computed by different code", "anchors": ["graphical_models/utils/core_utils.py:get_extended_cov", "graphical_models/classes/dags/gaussdag.py:GaussDAG.sample", "graphical_models/classes/dags/gaussdag.py:GaussDAG.covariance"]}
