import Verif.Model.Combinatorics
import Verif.Model.UtilsText
import Verif.Model.Rng
import Mathlib.Analysis.SpecialFunctions.Pow.Complex
import Mathlib.Logic.Relation

/-!
# Model of `ff_graph_theory.py`

networkx is external. Its graph class is modelled by what the code observes of it; its algorithms are either
modelled by their meaning (connectivity, trees, adjacency matrices) or are parameters (`Nx`) about which only the
contracts of `Spec/Graph.lean` are assumed. All drawing is left out.
-/

namespace FF

/-- An undirected `nx.Graph`, as the code observes it: `list(G.nodes)` in insertion order, `list(G.edges)` (every
edge once, in the orientation in which networkx reports it) and `G[u][v].get("weight", 1)`. -/
structure NxGraph (α : Type) where
  nodes : List α
  edges : List (α × α)
  weight : α → α → ℝ := fun _ _ => 1

/-- `(u, v) in G.edges`: for an undirected graph the orientation does not matter. -/
def NxGraph.hasEdge {α : Type} (G : NxGraph α) (u v : α) : Prop := (u, v) ∈ G.edges ∨ (v, u) ∈ G.edges

instance {α : Type} [DecidableEq α] (G : NxGraph α) (u v : α) : Decidable (G.hasEdge u v) :=
  inferInstanceAs (Decidable (_ ∨ _))

/-- `nx.adjacency_matrix(G).toarray()` of a graph with at least one node; rows and columns follow the insertion
order of the nodes. -/
def NxGraph.adjacency {α : Type} [DecidableEq α] (G : NxGraph α) :
    Matrix (Fin G.nodes.length) (Fin G.nodes.length) ℝ := fun i j =>
  if G.hasEdge (G.nodes.get i) (G.nodes.get j) then G.weight (G.nodes.get i) (G.nodes.get j) else 0

/-- `nx.adjacency_matrix(G)`: networkx raises NetworkXError for a graph without nodes. -/
def adjacencyMatrix {α : Type} [DecidableEq α] (G : NxGraph α) :
    Except PyErr (Matrix (Fin G.nodes.length) (Fin G.nodes.length) ℝ) :=
  if G.nodes.length = 0 then .error .networkXError else .ok G.adjacency

/-- `nx.is_connected(G)` (for a graph with nodes). -/
def NxGraph.isConnected {α : Type} (G : NxGraph α) : Prop :=
  ∀ u ∈ G.nodes, ∀ v ∈ G.nodes, Relation.ReflTransGen G.hasEdge u v

/-- `nx.is_tree(G)` (for a graph with nodes): `len(G) - 1 == G.number_of_edges() and nx.is_connected(G)`. -/
def NxGraph.isTree {α : Type} (G : NxGraph α) : Prop :=
  G.edges.length + 1 = G.nodes.length ∧ G.isConnected

/-! ## Brute force enumeration -/

/-- `itertools.combinations(l, k)`, in the order in which itertools emits them. -/
def combinations {α : Type} : ℕ → List α → List (List α)
  | 0, _ => [[]]
  | _ + 1, [] => []
  | k + 1, x :: xs => (combinations k xs).map (x :: ·) ++ combinations (k + 1) xs

/-- The nodes touched by a combination of edges (lines 524-527), as a set: a list without repetitions. -/
def nodesInMatching {α : Type} [DecidableEq α] (c : List (α × α)) : List α :=
  (c.flatMap fun e => [e.1, e.2]).dedup

/-- `find_perfect_matchings_brute(graph)`, ff_graph_theory.py:503-531 (the printed warning is left out). -/
def findPerfectMatchingsBrute {α : Type} [DecidableEq α] (G : NxGraph α) : List (List (α × α)) :=
  let n := G.nodes.length
  if n % 2 ≠ 0 then []
  else if n > 15 then []
  else (combinations (n / 2) G.edges).filter fun c => (nodesInMatching c).length = n

/-! ## Faces -/

/-- A directed edge. -/
abbrev Dart := ℕ × ℕ

/-- Python's comparison of pairs of numbers. -/
def dartLt (d e : Dart) : Bool := d.1 < e.1 || (d.1 == e.1 && d.2 < e.2)

/-- `min(edgeset)`: `none` (ValueError in Python) on the empty set. -/
def minDart : List Dart → Option Dart
  | [] => none
  | d :: ds => some (ds.foldl (fun m e => if dartLt e m then e else m) d)

/-- The next edge along a face (lines 338-341): `cw v u` is `emb[v][u]["cw"]`. -/
def nextDart (cw : ℕ → ℕ → ℕ) (d : Dart) : Dart := (d.2, cw d.2 d.1)

/-- The loop of `faces`, ff_graph_theory.py:337-350. The set `edgeset` is a list without repetitions. The first
argument bounds the number of iterations. -/
def facesLoop (cw : ℕ → ℕ → ℕ) : ℕ → List Dart → List (List Dart) → List Dart →
    Except PyErr (List (List Dart) × List Dart)
  | _, [], F, path => .ok (F, path)
  | 0, _ :: _, _, _ => .error .outOfFuel
  | fuel + 1, d :: ds, F, path =>
    match path.getLast? with
    | none => .error .indexError
    | some last =>
      let e := nextDart cw last
      if path.head? = some e then
        match minDart (d :: ds) with
        | none => .error .valueError
        | some m => facesLoop cw fuel ((d :: ds).erase m) (F ++ [path]) [m]
      else facesLoop cw fuel ((d :: ds).erase e) F (path ++ [e])

/-- Both directions of every edge (lines 320-323). -/
def NxGraph.edgeset (G : NxGraph ℕ) : List Dart := (G.edges.flatMap fun e => [(e.1, e.2), (e.2, e.1)]).dedup

/-- Lines 320-329 and 337-352 of `faces`: trace all faces of the embedding `cw`, before the outer face is looked
for. The loop runs once per directed edge; on data that is not an embedding Python's loop may run longer than the
bound used here. -/
def traceFaces (cw : ℕ → ℕ → ℕ) (G : NxGraph ℕ) : Except PyErr (List (List Dart)) :=
  match minDart G.edgeset with
  | none => .error .valueError
  | some m => do
    let (F, path) ← facesLoop cw G.edgeset.length (G.edgeset.erase m) [] [m]
    if path ≠ [] then pure (F ++ [path]) else pure F

/-- The sorted list of the vertices of a face (lines 370-375). -/
def faceVerts (f : List Dart) : List ℕ :=
  ((f.flatMap fun e => [e.1, e.2]).dedup).mergeSort (· ≤ ·)

/-- Lines 366-385 of `faces`: the first face with the vertices of networkx's outer face goes to the end. -/
def moveOuter (outer : List ℕ) (F : List (List Dart)) : List (List Dart) :=
  match F.find? fun f => outer.mergeSort (· ≤ ·) = faceVerts f with
  | none => F
  | some f => F.erase f ++ [f]

/-- The networkx algorithms the code calls. -/
structure Nx where
  /-- `nx.check_planarity(G)`: `none` if not planar, otherwise the embedding `cw` with
  `cw v u = emb[v][u]["cw"]`, a total function whose value matters on edges only. -/
  checkPlanarity : NxGraph ℕ → Option (ℕ → ℕ → ℕ)
  /-- `triangulate_embedding(emb, False)[1]`, the outer face networkx chooses. -/
  outerFace : (ℕ → ℕ → ℕ) → List ℕ
  /-- `nx.maximum_spanning_tree(G).edges()`. -/
  maximumSpanningTree : NxGraph ℕ → List Dart
  /-- the order in which Python iterates over a set with these elements -/
  setOrder : List Dart → List Dart

/-- `faces(graph, emb)`, ff_graph_theory.py:305-387. `none` stands for the returned number `0`. -/
def faces (nx : Nx) (G : NxGraph ℕ) (emb : Option (ℕ → ℕ → ℕ)) : Except PyErr (Option (List (List Dart))) :=
  match minDart G.edgeset with
  | none => .error .valueError
  | some _ =>
    match emb <|> nx.checkPlanarity G with
    | none => .ok none
    | some cw => do
      let F ← traceFaces cw G
      pure (some (moveOuter (nx.outerFace cw) F))

/-! ## The dual graph -/

/-- `tuple(sorted(e))`. -/
def sortDart (e : Dart) : Dart := (min e.1 e.2, max e.1 e.2)

/-- The inner loop of `dual_graph_H`, ff_graph_theory.py:280-294: the dual edge of `e`, if one is added. -/
def dualScan (faceEdges : List (List Dart)) (e : Dart) : Option ℕ → List (List Dart) → Option (ℕ × ℕ)
  | none, [] => none
  | some u, [] => some (u, faceEdges.length)
  | none, f :: fs =>
    if e ∈ f then dualScan faceEdges e (some (faceEdges.idxOf f)) fs else dualScan faceEdges e none fs
  | some u, f :: fs =>
    if e ∈ f then some (u, faceEdges.idxOf f) else dualScan faceEdges e (some u) fs

/-- `G.edges() - T.edges()` (line 273): the edges of `G`, in the orientation `G` reports them, that are not edges
of `T` in either orientation. -/
def edgesNotInT (G : NxGraph ℕ) (T : List Dart) : List Dart :=
  G.edges.filter fun e => ¬ (e ∈ T ∨ (e.2, e.1) ∈ T)

/-- `H.add_edge(u, v)` on an undirected graph without parallel edges; missing nodes are added. -/
def NxGraph.addEdge (H : NxGraph ℕ) (e : ℕ × ℕ) : NxGraph ℕ :=
  let nodes1 := if e.1 ∈ H.nodes then H.nodes else H.nodes ++ [e.1]
  let nodes2 := if e.2 ∈ nodes1 then nodes1 else nodes1 ++ [e.2]
  { nodes := nodes2
    edges := if H.hasEdge e.1 e.2 then H.edges else H.edges ++ [e]
    weight := H.weight }

/-- `dual_graph_H(G, F, T)`, ff_graph_theory.py:251-302. -/
def dualGraphH (nx : Nx) (G : NxGraph ℕ) (F : List (List Dart)) (T : List Dart) : NxGraph ℕ :=
  let faceEdges := F.map fun f => f.map sortDart
  let dualEdges := (nx.setOrder (edgesNotInT G T)).filterMap fun e => dualScan faceEdges e none faceEdges
  dualEdges.foldl NxGraph.addEdge { nodes := List.range faceEdges.length, edges := [] }

/-! ## Orienting faces -/

/-- `A[i, j] = x` on a 2-D array. -/
def setEntry {K : Type} {m n : ℕ} (A : Matrix (Fin m) (Fin n) K) (i j : ℕ) (x : K) :
    Except PyErr (Matrix (Fin m) (Fin n) K) :=
  if i < m ∧ j < n then .ok (fun a b => if a.1 = i ∧ b.1 = j then x else A a b) else .error .indexError

/-- Lines 408-411: `-1` if the edge is traversed downwards. -/
def prefixSign (e : Dart) : ℂ := if e.1 > e.2 then -1 else 1

open Classical in
/-- The loop of `complete_face`, ff_graph_theory.py:406-420: the product of the assigned signs and the list of
unassigned edges. -/
noncomputable def scanFace {n : ℕ} (pfo : Matrix (Fin n) (Fin n) ℂ) (edges : List Dart) :
    Except PyErr (ℂ × List Dart) :=
  edges.foldlM (fun (s : ℂ × List Dart) e => do
    let x ← get2 pfo (min e.1 e.2) (max e.1 e.2)
    if isclose (x.re : ℂ) 0 then pure (s.1, s.2 ++ [e])
    else pure (s.1 * (x * prefixSign e), s.2)) (1, [])

open Classical in
/-- `complete_face(pfo, edges)`, ff_graph_theory.py:390-451. The array is changed in place; the second component
tells whether the array (`true`) or `None` (`false`) is returned. The messages are in Model/Draw.lean. -/
noncomputable def completeFace {n : ℕ} (pfo : Matrix (Fin n) (Fin n) ℂ) (edges : List Dart) :
    Except PyErr (Matrix (Fin n) (Fin n) ℂ × Bool) := do
  let (sign, skip) ← scanFace pfo edges
  match skip.getLast? with
  | none => pure (pfo, false)
  | some e =>
    let u := min e.1 e.2
    let v := max e.1 e.2
    let x := if sign = -1 then prefixSign e else -1 * prefixSign e
    let pfo ← setEntry pfo u v x
    let pfo ← setEntry pfo v u x
    pure (pfo, true)

/-! ## The Pfaffian orientation -/

/-- `H.degree(x)`; a self-loop counts twice. -/
def NxGraph.degree (H : NxGraph ℕ) (x : ℕ) : ℕ :=
  H.edges.countP (fun e => e.1 = x) + H.edges.countP (fun e => e.2 = x)

/-- `H.remove_node(x)`. -/
def NxGraph.removeNode (H : NxGraph ℕ) (x : ℕ) : NxGraph ℕ :=
  { H with nodes := H.nodes.erase x, edges := H.edges.filter fun e => ¬ (e.1 = x ∨ e.2 = x) }

/-- Lines 614-617 of `pfo_algorithm`: complete the faces of the leaves and remove them. -/
noncomputable def processLeaves {n : ℕ} (F : List (List Dart)) (leaves : List ℕ)
    (s : NxGraph ℕ × Matrix (Fin n) (Fin n) ℂ) : Except PyErr (NxGraph ℕ × Matrix (Fin n) (Fin n) ℂ) :=
  leaves.foldlM (fun s leaf => do
    let face ← listGet F leaf
    let (o, _) ← completeFace s.2 face
    pure (s.1.removeNode leaf, o)) s

/-- Lines 607-617 of `pfo_algorithm`; the first argument bounds the number of iterations. -/
noncomputable def leafLoop {n : ℕ} (F : List (List Dart)) (root : ℕ) :
    ℕ → NxGraph ℕ × Matrix (Fin n) (Fin n) ℂ → Except PyErr (Matrix (Fin n) (Fin n) ℂ)
  | 0, s => if s.1.nodes.length > 1 then .error .outOfFuel else .ok s.2
  | fuel + 1, s =>
    if s.1.nodes.length > 1 then
      let leaves := s.1.nodes.filter fun x => s.1.degree x = 1 ∧ x ≠ root
      if leaves = [] then .ok s.2
      else do
        let s ← processLeaves F leaves s
        leafLoop F root fuel s
    else .ok s.2

/-- Lines 583-587 of `pfo_algorithm`: orient the edges of the spanning tree upwards. -/
def orientTree {n : ℕ} (T : List Dart) (o : Matrix (Fin n) (Fin n) ℂ) : Except PyErr (Matrix (Fin n) (Fin n) ℂ) :=
  T.foldlM (fun o e => do
    let u := min e.1 e.2
    let v := max e.1 e.2
    let o ← setEntry o u v 1
    setEntry o v u (-1)) o

/-- `max(H.nodes())`. -/
def maxNode : List ℕ → Except PyErr ℕ
  | [] => .error .valueError
  | x :: xs => .ok (xs.foldl max x)

open Classical in
/-- `pfo_algorithm(graph)`, ff_graph_theory.py:534-634, with `verbose=False`. Iterating over the value `0` that
`faces` returns for a non-planar graph raises TypeError in `dual_graph_H`. Messages and plots are in Model/Draw.lean. -/
noncomputable def pfoAlgorithm (nx : Nx) (G : NxGraph ℕ) :
    Except PyErr (Matrix (Fin G.nodes.length) (Fin G.nodes.length) ℝ) := do
  let T := nx.maximumSpanningTree G
  let A ← adjacencyMatrix G
  let orientation : Matrix (Fin G.nodes.length) (Fin G.nodes.length) ℂ := fun i j => (A i j : ℂ) * (99 * Complex.I)
  let emb := nx.checkPlanarity G
  match ← faces nx G emb with
  | none => throw .typeError
  | some F =>
    let H := dualGraphH nx G F T
    if ¬ H.isTree then throw .assertionError
    else do
      let orientation ← orientTree T orientation
      let root ← maxNode H.nodes
      let orientation ← leafLoop F root H.nodes.length (H, orientation)
      pure fun i j => (orientation i j).re

/-! ## Counting -/

/-- `np.triu(M)`. -/
def npTriu {n : ℕ} (M : Matrix (Fin n) (Fin n) ℝ) : Matrix (Fin n) (Fin n) ℝ := fun i j => if i ≤ j then M i j else 0

/-- `np.sqrt(x)` of what `dt_eigen` returned: the principal square root; TypeError for `None`. -/
noncomputable def npSqrt : Option ℂ → Except PyErr ℂ
  | none => .error .typeError
  | some z => .ok (z ^ (1 / 2 : ℂ))

/-- Lines 496-498: `np.triu(pfo * A)` minus its transpose. -/
def pfoMatrix {n : ℕ} (pfo A : Matrix (Fin n) (Fin n) ℝ) : Matrix (Fin n) (Fin n) ℝ :=
  let pfoA := npTriu fun i j => pfo i j * A i j
  fun i j => pfoA i j - pfoA j i

/-- `count_perfect_matchings_planar(graph)`, ff_graph_theory.py:473-500. `eigvals` is the parameter of `dtEigen`. -/
noncomputable def countPerfectMatchingsPlanar
    (eigvals : {n : ℕ} → Matrix (Fin n) (Fin n) ℂ → Except PyErr (List ℂ)) (nx : Nx) (G : NxGraph ℕ) :
    Except PyErr CleanRes := do
  if (nx.checkPlanarity G).isNone then throw .assertionError
  if G.nodes.length = 0 then return .real 0
  let A ← adjacencyMatrix G
  let pfo ← pfoAlgorithm nx G
  let d ← dtEigen eigvals ((pfoMatrix pfo A).map (fun x : ℝ => (x : ℂ)))
  let z ← npSqrt d
  clean (.complex z) (.int 10)

/-- `count_perfect_matchings(graph)`, ff_graph_theory.py:454-470. Python integers and floats are both `real`. -/
noncomputable def countPerfectMatchings
    (eigvals : {n : ℕ} → Matrix (Fin n) (Fin n) ℂ → Except PyErr (List ℂ)) (nx : Nx) (G : NxGraph ℕ) :
    Except PyErr CleanRes :=
  if (nx.checkPlanarity G).isSome then countPerfectMatchingsPlanar eigvals nx G
  else .ok (.real (findPerfectMatchingsBrute G).length)

/-! ## Random planar graphs -/

/-- Python's `random` module and networkx's generator drawing from it. -/
structure GraphRng (σ : Type) where
  /-- the state after `random.seed(s)` -/
  seeded : ℤ → σ
  /-- `random.randint(a, b)` for `a ≤ b` -/
  randint : ℤ → ℤ → σ → ℤ × σ
  /-- `nx.gnm_random_graph(n, m)` -/
  gnm : ℕ → ℤ → σ → NxGraph ℕ × σ

/-- `random.randint(a, b)`: ValueError for an empty range. -/
def pyRandint {σ : Type} (rng : GraphRng σ) (a b : ℤ) : Rand σ ℤ :=
  if a ≤ b then draw (rng.randint a b) else throw .valueError

open Classical in
/-- The loop of `generate_random_planar_graph`, ff_graph_theory.py:194-200, with the number of attempts left. -/
noncomputable def planarAttempts {σ : Type} (rng : GraphRng σ) (nx : Nx) (n : ℤ) : ℕ → Rand σ (Option (NxGraph ℕ))
  | 0 => pure none
  | k + 1 => do
    let m ← pyRandint rng (n - 1) (2 * n - 3)
    let G ← draw (rng.gnm n.toNat m)
    if (nx.checkPlanarity G).isSome ∧ G.isConnected then pure (some G)
    else planarAttempts rng nx n k

/-- `generate_random_planar_graph(n, seed)`, ff_graph_theory.py:177-200. `if seed:` ignores both `None` and `0`. -/
noncomputable def generateRandomPlanarGraph {σ : Type} (rng : GraphRng σ) (nx : Nx) (n : ℤ) (seed : Option ℤ) :
    Rand σ (Option (NxGraph ℕ)) := do
  match seed with
  | none => pure ()
  | some s => if s ≠ 0 then (fun _ => (.ok (), rng.seeded s) : Rand σ Unit) else pure ()
  planarAttempts rng nx n 1000

/-! ## Tree depth -/

/-- The levels of networkx's breadth first search (`single_source_shortest_path_length`): nodes with their
distance, level by level. -/
def bfsLevels {α : Type} [DecidableEq α] (G : NxGraph α) : ℕ → ℕ → List α → List α → List (α × ℕ)
  | 0, _, _, _ => []
  | fuel + 1, level, seen, frontier =>
    match frontier with
    | [] => []
    | _ :: _ =>
      let next := G.nodes.filter fun v => v ∉ seen ∧ ∃ u ∈ frontier, G.hasEdge u v
      frontier.map (fun v => (v, level)) ++ bfsLevels G fuel (level + 1) (seen ++ next) next

/-- `nx.single_source_shortest_path_length(G, root)`: the items of the dictionary. -/
def singleSourceShortestPathLength {α : Type} [DecidableEq α] (G : NxGraph α) (root : α) : List (α × ℕ) :=
  bfsLevels G G.nodes.length 0 [root] [root]

/-- `compute_tree_depth(graph)`, ff_graph_theory.py:637-656. `nx.is_tree` raises an exception of networkx on a graph
without nodes. -/
noncomputable def computeTreeDepth {α : Type} [DecidableEq α] (G : NxGraph α) : Except PyErr ℕ :=
  match G.nodes with
  | [] => .error .networkXError
  | root :: _ =>
    open Classical in
    if ¬ G.isTree then .error .valueError
    else maxNode ((singleSourceShortestPathLength G root).map Prod.snd)

/-! ## The weighted graph of a matrix -/

/-- The graph returned by `plot_graph_with_edge_weights`. -/
structure WeightedGraph where
  directed : Bool
  nodes : List ℕ
  /-- edges with weights, in the order in which they are added -/
  edges : List (ℕ × ℕ × ℝ)

/-- Python's `round(10e3 * x) / 10e3`. -/
noncomputable def roundWeight (x : ℝ) : ℝ := (rint (10e3 * x) : ℝ) / 10e3

/-- `plot_graph_with_edge_weights(A)`, ff_graph_theory.py:96-174, for a real square array: the graph that is
built and returned. The drawing is in Model/Draw.lean. -/
noncomputable def plotGraphWithEdgeWeights {n : ℕ} (A : Matrix (Fin n) (Fin n) ℝ) : WeightedGraph :=
  open Classical in
  let directed : Bool := ¬ allclose (A.map (fun x : ℝ => (x : ℂ))) (A.map (fun x : ℝ => (x : ℂ))).transpose
  let pairs : List (Fin n × Fin n) := (List.finRange n).flatMap fun i =>
    ((List.finRange n).filter fun j => directed ∨ i < j).map fun j => (i, j)
  { directed := directed
    nodes := List.range n
    edges := (pairs.filter fun p => A p.1 p.2 ≠ 0).map fun p => (p.1.1, p.2.1, roundWeight (A p.1 p.2)) }

end FF
