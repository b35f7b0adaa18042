import Mathlib.Data.Finset.Basic
import Mathlib.Data.Finset.Union
import Mathlib.Data.Rat.Defs
import Mathlib.Algebra.Order.Ring.Rat
import Mathlib.Data.List.Sort
import Verif.Model.PyData

/-!
# The reaction network: graph, precursors, target, path search

Models `src/rxn_network/network/{network,base,entry}.py`.

Simplifications that hold throughout the file.

* An entry is an abstract value of a type `η` with decidable equality (`Entry.__eq__`); a set of
  entries is a `Finset η`.  `rxn.reactant_entries` and `rxn.product_entries` are parameters
  `R P : ρ → Finset η` (the code turns the list into a set immediately, entry.py 41).
* rustworkx's `PyDiGraph` (a petgraph `StableGraph`, multigraph by default) is modelled by
  `Graph` below: live nodes in index order, a last-in-first-out free list of node indices, and the
  edges, newest first.  `get_edge_data`/`remove_edge` act on the newest parallel edge.
* `rx.dijkstra_shortest_paths` is a parameter.
* Logging and printing are dropped.
-/

namespace Verif.Model.Network

open Verif.Py

/-- Models src/rxn_network/network/entry.py:20-27 (`NetworkEntryType`). -/
inductive Kind
  | precursors | reactants | products | target | dummy
  deriving DecidableEq, Repr

/-- Models src/rxn_network/network/entry.py:30-45 and 94-104 (`NetworkEntry`): equality is equality of the
description and of the set of entries (`chemsys` is a function of the entries, so comparing it as
well, line 98, changes nothing).  `elements`, `dim` are not modelled. -/
structure Node (η : Type) where
  kind : Kind
  entries : Finset η
  deriving DecidableEq

/-- The payload of an edge.  Models the four shapes told apart by src/rxn_network/network/network.py:335-344:
the three marker strings, a reaction, anything else. -/
inductive Edge (ρ : Type)
  | loopback | precursor | target
  | rxn (r : ρ)
  | other
  deriving DecidableEq, Repr

/-- Models src/rxn_network/network/base.py:118 (`class Graph(PyDiGraph)`): `nodes` are the live nodes in index
order, `free` the freed indices (reused last-in first-out by petgraph), `bound` the number of
slots, `edges` all edges, newest first. -/
structure Graph (ν ε : Type) where
  nodes : List (ℕ × ν)
  free : List ℕ
  bound : ℕ
  edges : List (ℕ × ℕ × ε)
  deriving DecidableEq

namespace Graph

variable {ν ε : Type}

/-- The graph made by `Graph()`; src/rxn_network/network/network.py:77, src/rxn_network/network/base.py:151. -/
def empty : Graph ν ε := ⟨[], [], 0, []⟩

/-- Models `g.get_node_data(i)` (src/rxn_network/network/network.py:145, 155, 163, 204, 215, 255); `none` is
rustworkx's `IndexError`. -/
def nodeData (g : Graph ν ε) (i : ℕ) : Option ν := (g.nodes.find? fun p => p.1 == i).map (·.2)

/-- Put a node into the index-ordered node list (part of the petgraph slot structure behind
src/rxn_network/network/network.py:151). -/
def insertNode (i : ℕ) (v : ν) : List (ℕ × ν) → List (ℕ × ν)
  | [] => [(i, v)]
  | p :: l => if i ≤ p.1 then (i, v) :: p :: l else p :: insertNode i v l

/-- Models `g.add_node(v)` (src/rxn_network/network/network.py:151, 211): the most recently freed index is reused,
otherwise a new slot is made. -/
def addNode (g : Graph ν ε) (v : ν) : ℕ × Graph ν ε :=
  match g.free with
  | i :: fr => (i, { g with nodes := insertNode i v g.nodes, free := fr })
  | [] => (g.bound, { g with nodes := insertNode g.bound v g.nodes, bound := g.bound + 1 })

/-- Models `g.add_nodes_from(vs)` (src/rxn_network/network/network.py:82, src/rxn_network/network/base.py:152): the new indices, in
the order of `vs`, and the new graph. -/
def addNodesFrom (g : Graph ν ε) : List ν → List ℕ × Graph ν ε
  | [] => ([], g)
  | v :: vs => ((g.addNode v).1 :: ((g.addNode v).2.addNodesFrom vs).1,
      ((g.addNode v).2.addNodesFrom vs).2)

/-- Models `g.add_edges_from(es)` (src/rxn_network/network/network.py:83, 170, 223, 428, src/rxn_network/network/base.py:159).
The endpoints are always live in this code, so rustworkx's error for dead endpoints is left out. -/
def addEdgesFrom (g : Graph ν ε) (es : List (ℕ × ℕ × ε)) : Graph ν ε :=
  { g with edges := es.reverse ++ g.edges }

/-- Models `g.remove_node(i)` (src/rxn_network/network/network.py:146, 205): the node and all incident edges. -/
def removeNode (g : Graph ν ε) (i : ℕ) : Graph ν ε :=
  { g with
    nodes := g.nodes.filter fun p => p.1 != i
    free := i :: g.free
    edges := g.edges.filter fun e => e.1 != i && e.2.1 != i }

/-- Models `g.get_edge_data(a, b)` (src/rxn_network/network/network.py:256, 378, 417): the newest edge; `none` is
`rx.NoEdgeBetweenNodes`. -/
def getEdge (g : Graph ν ε) (a b : ℕ) : Option ε :=
  (g.edges.find? fun e => e.1 == a && e.2.1 == b).map (·.2.2)

/-- Models `g.remove_edge(a, b)` (src/rxn_network/network/network.py:421): the newest edge only. -/
def removeEdge (g : Graph ν ε) (a b : ℕ) : Graph ν ε :=
  { g with edges := g.edges.eraseP fun e => e.1 == a && e.2.1 == b }

end Graph

section Build

variable {η ρ : Type} [DecidableEq η]

/-- Models src/rxn_network/network/network.py:284-288 and 290-294: append the node unless it is listed, and return
its index. -/
def internNode (nodes : List (Node η)) (v : Node η) : List (Node η) × ℕ :=
  if v ∈ nodes then (nodes, nodes.idxOf v) else (nodes ++ [v], nodes.length)

/-- Models src/rxn_network/network/network.py:280-296, one iteration. -/
def rxnStep (R P : ρ → Finset η) (st : List (Node η) × List (ℕ × ℕ × Edge ρ)) (r : ρ) :
    List (Node η) × List (ℕ × ℕ × Edge ρ) :=
  let a := internNode st.1 ⟨.reactants, R r⟩
  let b := internNode a.1 ⟨.products, P r⟩
  (b.1, st.2 ++ [(a.2, b.2, Edge.rxn r)])

/-- Models src/rxn_network/network/network.py:264-298 (`get_rxn_nodes_and_edges`). -/
def rxnNodesAndEdges (R P : ρ → Finset η) (rxns : List ρ) :
    List (Node η) × List (ℕ × ℕ × Edge ρ) :=
  rxns.foldl (rxnStep R P) ([], [])

/-- Models src/rxn_network/network/network.py:314-321, the inner loop for one product node. -/
def loopbackFrom (nodes : List (Node η)) (p : Node η × ℕ) : List (ℕ × ℕ × Edge ρ) :=
  if p.1.kind ≠ .products then []
  else nodes.zipIdx.filterMap fun r =>
    if r.1.kind ≠ .reactants then none
    else if p.1.entries = r.1.entries then some (p.2, r.2, Edge.loopback) else none

/-- Models src/rxn_network/network/network.py:301-323 (`get_loopback_edges`). -/
def loopbackEdges (nodes : List (Node η)) : List (ℕ × ℕ × Edge ρ) :=
  nodes.zipIdx.flatMap (loopbackFrom nodes)

/-- Models src/rxn_network/network/network.py:65-87 (`build`): the graph it stores. -/
def buildGraph (R P : ρ → Finset η) (rxns : List ρ) : Graph (Node η) (Edge ρ) :=
  let ne := rxnNodesAndEdges R P rxns
  let edges := ne.2 ++ loopbackEdges ne.1
  ((Graph.empty.addNodesFrom ne.1).2).addEdgesFrom edges

end Build

section State

variable {η ρ φ : Type} [DecidableEq η]

/-- Models src/rxn_network/network/base.py:37-45 and src/rxn_network/network/network.py:45-63: the state of a `ReactionNetwork`
object.  The cost function is a parameter where it is used. -/
structure Net (η ρ : Type) where
  rxns : List ρ
  entries : Finset η
  precursors : Option (Finset η)
  target : Option η
  g : Option (Graph (Node η) (Edge ρ))

/-- Models src/rxn_network/network/base.py:26-45 (`Network.__init__`). -/
def Net.new (rxns : List ρ) (entries : Finset η) : Net η ρ := ⟨rxns, entries, none, none, none⟩

/-- Models src/rxn_network/network/network.py:65-87 (`build`): only `_g` is replaced. -/
def Net.build (R P : ρ → Finset η) (n : Net η ρ) : Net η ρ :=
  { n with g := some (buildGraph R P n.rxns) }

/-- An argument of `set_precursors`/`set_target`: an entry, or a formula (src/rxn_network/network/network.py:133, 190-194). -/
inductive Arg (η φ : Type)
  | entry (e : η)
  | formula (f : φ)
  deriving DecidableEq

/-- Models src/rxn_network/network/network.py:133 and 190-194; `minEntry` is `get_min_entry_by_formula`
(property C38), which raises for an unknown formula. -/
def resolve (minEntry : φ → Except Err η) : Arg η φ → Except Err η
  | .entry e => .ok e
  | .formula f => minEntry f

/-- Models `not g` (src/rxn_network/network/network.py:129, 187, 232): a missing graph, and also a graph without
nodes, because `PyDiGraph` defines `__len__`. -/
def usable (n : Net η ρ) : Option (Graph (Node η) (Edge ρ)) :=
  match n.g with
  | none => none
  | some g => if g.nodes = [] then none else some g

/-- Models src/rxn_network/network/network.py:144-149 and 203-208: the index of the first node of a kind. -/
def findKind (k : Kind) (g : Graph (Node η) (Edge ρ)) : Option ℕ :=
  (g.nodes.find? fun p => p.2.kind == k).map (·.1)

/-- Models src/rxn_network/network/network.py:162-168, the inner loop for one product node. -/
def newLoopbacks (ps : Finset η) (nodes : List (ℕ × Node η)) (p : ℕ × Node η) :
    List (ℕ × ℕ × Edge ρ) :=
  nodes.filterMap fun q =>
    if q.2.kind = .reactants then
      if q.2.entries ⊆ ps then none
      else if q.2.entries ⊆ ps ∪ p.2.entries then some (p.1, q.1, Edge.loopback) else none
    else none

/-- Models src/rxn_network/network/network.py:155-168, one iteration of the loop over nodes. -/
def precursorEdgesAt (ps : Finset η) (pn : ℕ) (nodes : List (ℕ × Node η)) (p : ℕ × Node η) :
    List (ℕ × ℕ × Edge ρ) :=
  if p.2.kind = .reactants then
    if p.2.entries ⊆ ps then [(pn, p.1, Edge.precursor)] else []
  else if p.2.kind = .products then newLoopbacks ps nodes p
  else []

/-- Models src/rxn_network/network/network.py:151-170: add the precursors node and its edges. -/
def attachPrecursors (ps : Finset η) (g : Graph (Node η) (Edge ρ)) : Graph (Node η) (Edge ρ) :=
  let a := g.addNode ⟨.precursors, ps⟩
  a.2.addEdgesFrom (a.2.nodes.flatMap (precursorEdgesAt ps a.1 a.2.nodes))

/-- Models src/rxn_network/network/network.py:143-149: remove the old precursors node.  `self.precursors` is
tested for truth, so an empty old set counts as "no old precursors". -/
def detachPrecursors (old : Option (Finset η)) (g : Graph (Node η) (Edge ρ)) :
    Except Err (Graph (Node η) (Edge ρ)) :=
  match old with
  | none => .ok g
  | some s =>
    if s = ∅ then .ok g
    else match findKind .precursors g with
      | some i => .ok (g.removeNode i)
      | none => .error .valueError

/-- Models src/rxn_network/network/network.py:114-171 (`set_precursors`).  No exception is raised after the first
change to the graph, so the result of a failing call is just the exception. -/
def Net.setPrecursors (minEntry : φ → Except Err η) (n : Net η ρ) (args : List (Arg η φ)) :
    Except Err (Net η ρ) :=
  match usable n with
  | none => .error .valueError
  | some g =>
    match args.mapM (resolve minEntry) with
    | .error e => .error e
    | .ok l =>
      if some l.toFinset = n.precursors then .ok n
      else if ¬ l.toFinset ⊆ n.entries then .error .valueError
      else match detachPrecursors n.precursors g with
        | .error e => .error e
        | .ok g' => .ok { n with
            g := some (attachPrecursors l.toFinset g'), precursors := some l.toFinset }

/-- Models src/rxn_network/network/network.py:210-223: add the target node and its edges. -/
def attachTarget (t : η) (g : Graph (Node η) (Edge ρ)) : Graph (Node η) (Edge ρ) :=
  let a := g.addNode ⟨.target, {t}⟩
  a.2.addEdgesFrom (a.2.nodes.filterMap fun p =>
    if p.2.kind = .products ∧ t ∈ p.2.entries then some (p.1, a.1, Edge.target) else none)

/-- Models src/rxn_network/network/network.py:202-208: remove the old target node. -/
def detachTarget (old : Option η) (g : Graph (Node η) (Edge ρ)) :
    Except Err (Graph (Node η) (Edge ρ)) :=
  match old with
  | none => .ok g
  | some _ => match findKind .target g with
    | some i => .ok (g.removeNode i)
    | none => .error .valueError

/-- Models src/rxn_network/network/network.py:173-225 (`set_target`); as for `set_precursors`, nothing is changed
before the last exception that can be raised. -/
def Net.setTarget (minEntry : φ → Except Err η) (n : Net η ρ) (arg : Arg η φ) :
    Except Err (Net η ρ) :=
  match usable n with
  | none => .error .valueError
  | some g =>
    match resolve minEntry arg with
    | .error e => .error e
    | .ok t =>
      if some t = n.target then .ok n
      else if t ∉ n.entries then .error .valueError
      else match detachTarget n.target g with
        | .error e => .error e
        | .ok g' => .ok { n with g := some (attachTarget t g'), target := some t }

end State

section Serialize

variable {ν ε : Type} [DecidableEq ν]

/-- Models src/rxn_network/network/base.py:123-137 (`Graph.as_dict`): node payloads, their indices, and the edges.
Payloads are taken as values that survive `as_dict`/`MontyDecoder`. -/
structure GraphDict (ν ε : Type) where
  nodes : List ν
  nodeIndices : List ℕ
  edges : List (ℕ × ℕ × ε)

/-- Models src/rxn_network/network/base.py:128-135; rustworkx lists edges by edge index, here oldest first. -/
def Graph.asDict (g : Graph ν ε) : GraphDict ν ε :=
  ⟨g.nodes.map (·.2), g.nodes.map (·.1), g.edges.reverse⟩

/-- Models src/rxn_network/network/base.py:157: translate the endpoints of one edge; an unknown index is a
`KeyError`. -/
def remapEdge (mapping : List (ℕ × ℕ)) (e : ℕ × ℕ × ε) : Except Err (ℕ × ℕ × ε) :=
  match dictGet mapping e.1 with
  | none => .error .keyError
  | some a => match dictGet mapping e.2.1 with
    | none => .error .keyError
    | some b => .ok (a, b, e.2.2)

/-- Models src/rxn_network/network/base.py:139-161 (`Graph.from_dict`): the dict of line 149 is keyed by the node
payload, so equal payloads are merged. -/
def Graph.fromDict (d : GraphDict ν ε) : Except Err (Graph ν ε) :=
  let nodes := dictOf (d.nodes.zip d.nodeIndices)
  let a := (Graph.empty : Graph ν ε).addNodesFrom (nodes.map (·.1))
  let mapping := dictOf ((a.1.zip nodes).map fun p => (p.2.2, p.1))
  match d.edges.mapM (remapEdge mapping) with
  | .error e => .error e
  | .ok es => .ok (a.2.addEdgesFrom es)

end Serialize

section Paths

variable {ν ε ρ η : Type}

/-- Models src/rxn_network/network/network.py:326-344 (`get_edge_weight`). -/
def edgeWeight (cf : ρ → Except Err ℚ) : Edge ρ → Except Err ℚ
  | .loopback => .ok 0
  | .precursor => .ok 0
  | .target => .ok 0
  | .rxn r => cf r
  | .other => .error .valueError

/-- Models src/rxn_network/network/network.py:374-379 (`path_cost`); `none` is `rx.NoEdgeBetweenNodes`. -/
def pathCost (w : ε → ℚ) (g : Graph ν ε) : List ℕ → Option ℚ
  | a :: b :: l => match g.getEdge a b with
    | none => none
    | some e => (pathCost w g (b :: l)).map (w e + ·)
  | _ => some 0

/-- Models src/rxn_network/network/network.py:414-422, one iteration: if `path` shares the root, remove its next
edge (if it is still there) and remember it. -/
def removeShared (root : List ℕ) (i : ℕ) (st : Graph ν ε × List (ℕ × ℕ × ε)) (path : List ℕ) :
    Graph ν ε × List (ℕ × ℕ × ε) :=
  match path[i]?, path[i + 1]? with
  | some x, some y =>
    if root = path.take i then
      match st.1.getEdge x y with
      | none => st
      | some e => (st.1.removeEdge x y, st.2 ++ [(x, y, e)])
    else st
  | _, _ => st

/-- Models src/rxn_network/network/network.py:409-433, one spur node: `d` is `rx.dijkstra_shortest_paths`, `b` the
queue (as an unordered list), `none` an exception. -/
def spurStep (d : Graph ν ε → ℕ → ℕ → Option (List ℕ)) (w : ε → ℚ) (t : ℕ) (a : List (List ℕ))
    (prev : List ℕ) (st : Graph ν ε × List (ℚ × List ℕ)) (i : ℕ) :
    Option (Graph ν ε × List (ℚ × List ℕ)) :=
  match prev[i]? with
  | none => none
  | some spur =>
    let rm := a.foldl (removeShared (prev.take i) i) (st.1, [])
    let g' := rm.1.addEdgesFrom rm.2
    match d rm.1 spur t with
    | none => some (g', st.2)
    | some p =>
      match pathCost w g' (prev.take i ++ p) with
      | none => none
      | some c => some (g', st.2 ++ [(c, prev.take i ++ p)])

/-- The order of the priority queue (src/rxn_network/network/network.py:399, 433): tuples `(cost, path)` are
compared by cost, then lexicographically by path. -/
def queueLE (x y : ℚ × List ℕ) : Prop := x.1 < y.1 ∨ x.1 = y.1 ∧ x.2 ≤ y.2

instance : DecidableRel queueLE := fun _ _ => instDecidableOr

/-- Models src/rxn_network/network/network.py:435-443: pop until a path not yet in `a` comes out.  Returns the new
path (if any) and the rest of the queue. -/
def popNew (a : List (List ℕ)) (b : List (ℚ × List ℕ)) : List (List ℕ) × List (ℚ × List ℕ) :=
  match (b.insertionSort queueLE).dropWhile (fun x => decide (x.2 ∈ a)) with
  | [] => ([], [])
  | x :: rest => ([x.2], rest)

/-- Models src/rxn_network/network/network.py:401-443, the remaining `n` iterations starting with index `k`. -/
def yenLoop (d : Graph ν ε → ℕ → ℕ → Option (List ℕ)) (w : ε → ℚ) (t : ℕ) :
    ℕ → ℕ → Graph ν ε → List (List ℕ) → List (ℚ × List ℕ) → Option (List (List ℕ))
  | 0, _, _, a, _ => some a
  | n + 1, k, g, a, b =>
    match a[k - 1]? with
    | none => some a
    | some prev =>
      match (List.range (prev.length - 1)).foldlM (spurStep d w t a prev) (g, b) with
      | none => none
      | some st => yenLoop d w t n (k + 1) st.1 (a ++ (popNew a st.2).1) (popNew a st.2).2

/-- Models src/rxn_network/network/network.py:347-445 (`yens_ksp`).  The graph argument is copied (line 385), so
the caller's graph is not touched.  A `num_k` below 1 behaves like 1.  Edge weights are taken as
already evaluated (a raising cost function makes the whole call raise). -/
def yens (d : Graph ν ε → ℕ → ℕ → Option (List ℕ)) (w : ε → ℚ) (g : Graph ν ε) (numK s t : ℕ) :
    Option (List (List ℕ)) :=
  match d g s t with
  | none => some []
  | some first => match pathCost w g first with
    | none => none
    | some _ => yenLoop d w t (numK - 1) 1 g [first] []

/-- Models src/rxn_network/network/network.py:254-259, the loop body for a node `y` preceded by `x`: for a product
node, the edge into it and its cost are recorded. -/
def stepEdge (cf : ρ → Except Err ℚ) (g : Graph (Node η) (Edge ρ)) (x y : ℕ) :
    Except Err (List (Edge ρ × ℚ)) :=
  match g.nodeData y with
  | none => .error .indexError
  | some v =>
    if v.kind = .products then
      match g.getEdge x y with
      | none => .error .keyError
      | some e => match edgeWeight cf e with
        | .error er => .error er
        | .ok c => .ok [(e, c)]
    else .ok []

/-- Models src/rxn_network/network/network.py:254-259 from the second node on, `x` being the previous node. -/
def pathFrom (cf : ρ → Except Err ℚ) (g : Graph (Node η) (Edge ρ)) :
    ℕ → List ℕ → Except Err (List (Edge ρ × ℚ))
  | _, [] => .ok []
  | x, y :: l =>
    match stepEdge cf g x y with
    | .error e => .error e
    | .ok h => match pathFrom cf g y l with
      | .error e => .error e
      | .ok rest => .ok (h ++ rest)

/-- Models src/rxn_network/network/network.py:248-261 (`_path_from_graph`): reaction edges and their costs.  For
the first node `path[step - 1]` is `path[-1]`, the last one. -/
def pathFromGraph (cf : ρ → Except Err ℚ) (g : Graph (Node η) (Edge ρ)) (path : List ℕ) :
    Except Err (List (Edge ρ × ℚ)) :=
  match path with
  | [] => .ok []
  | x :: l => pathFrom cf g ((x :: l).getLastD 0) (x :: l)

end Paths

section Find

variable {η ρ φ : Type} [DecidableEq η] [DecidableEq ρ]

/-- Models `g.find_node_by_weight(v)` (src/rxn_network/network/network.py:236-239). -/
def findNode (g : Graph (Node η) (Edge ρ)) (v : Node η) : Option ℕ :=
  (g.nodes.find? fun p => p.2 == v).map (·.1)

/-- The weight used by the path search once every cost has been evaluated: models src/rxn_network/network/network.py:381-383 for a total cost function. -/
def weightOf (c : ρ → ℚ) : Edge ρ → ℚ
  | .rxn r => c r
  | _ => 0

/-- Models src/rxn_network/network/network.py:227-246 (`_k_shortest_paths`): the reaction edges with costs of each
path.  A missing precursors or target node (`find_node_by_weight` returning `None`) makes the
rustworkx call raise. -/
def kShortest (d : Graph (Node η) (Edge ρ) → ℕ → ℕ → Option (List ℕ)) (c : ρ → ℚ)
    (n : Net η ρ) (k : ℕ) : Except Err (List (List (Edge ρ × ℚ))) :=
  match usable n with
  | none => .error .valueError
  | some g =>
    match n.precursors, n.target with
    | some ps, some t =>
      match findNode g ⟨.precursors, ps⟩, findNode g ⟨.target, {t}⟩ with
      | some s, some e =>
        match yens d (weightOf c) g k s e with
        | none => .error .keyError
        | some paths => paths.mapM (pathFromGraph (fun r => .ok (c r)) g)
      | _, _ => .error .typeError
    | _, _ => .error .typeError

/-- Models src/rxn_network/network/network.py:103-110, one target. -/
def findOne (minEntry : φ → Except Err η)
    (d : Graph (Node η) (Edge ρ) → ℕ → ℕ → Option (List ℕ)) (c : ρ → ℚ) (k : ℕ)
    (st : Net η ρ × List (List (Edge ρ × ℚ))) (t : Arg η φ) :
    Except Err (Net η ρ × List (List (Edge ρ × ℚ))) :=
  match st.1.setTarget minEntry t with
  | .error e => .error e
  | .ok n => match kShortest d c n k with
    | .error e => .error e
    | .ok ps => .ok (n, st.2 ++ ps)

/-- Models src/rxn_network/network/network.py:89-112 (`find_pathways`) without the final packing into a
`PathwaySet`: missing or empty precursors raise `AttributeError`. -/
def findPathways (minEntry : φ → Except Err η)
    (d : Graph (Node η) (Edge ρ) → ℕ → ℕ → Option (List ℕ)) (c : ρ → ℚ)
    (n : Net η ρ) (targets : List (Arg η φ)) (k : ℕ) :
    Except Err (Net η ρ × List (List (Edge ρ × ℚ))) :=
  match n.precursors with
  | none => .error .attributeError
  | some ps =>
    if ps = ∅ then .error .attributeError
    else targets.foldlM (findOne minEntry d c k) (n, [])

end Find

end Verif.Model.Network
