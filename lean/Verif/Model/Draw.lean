import Verif.Model.Graph

/-!
# Model of the drawings and messages of `src/ff/ff_graph_theory.py`

A function that draws or prints is modelled by the list of actions it takes together with the value it returns or the
exception it raises; the actions taken before an exception are kept. Positions, sizes, colours other than the
ones named below and the styles of curves and labels are not modelled.
-/

namespace FF

/-- An action visible to the user. -/
inductive Event where
  /-- `nx.draw_networkx_nodes` -/
  | nodes (l : List ℕ)
  /-- `nx.draw_networkx_labels` -/
  | labels (l : List ℕ)
  /-- `nx.draw_networkx_edges` with the edges and the colour -/
  | edges (l : List Dart) (color : String)
  /-- `nx.draw_networkx_edge_labels` -/
  | edgeLabels (l : List (ℕ × ℕ × ℝ))
  /-- `nx.draw_networkx_edges` on a directed graph, with one edge and an arrow from the first to the second node -/
  | arrow (u v : ℕ)
  /-- `plt.title`, which replaces the previous title -/
  | title (s : String)
  /-- `plt.show` -/
  | show
  /-- `print` -/
  | print (s : String)

/-- The actions of a call, and the returned value or the exception. -/
structure Out (α : Type) where
  events : List Event
  result : Except PyErr α

/-- Run one computation after the other; nothing happens after an exception. -/
def Out.bind {α β : Type} (x : Out α) (f : α → Out β) : Out β :=
  match x.result with
  | .error e => ⟨x.events, .error e⟩
  | .ok a => ⟨x.events ++ (f a).events, (f a).result⟩

instance : Monad Out where
  pure a := ⟨[], .ok a⟩
  bind := Out.bind

/-- A single action. -/
def emit (e : Event) : Out Unit := ⟨[e], .ok ()⟩

/-- A call without actions. -/
def quiet {α : Type} (x : Except PyErr α) : Out α := ⟨[], x⟩

/-- `if c: x`. -/
def when (c : Prop) [Decidable c] (x : Out Unit) : Out Unit := if c then x else pure ()

/-! ## plot_planar_embedding -/

/-- `nx.planar_layout(G)`: raises `NetworkXException` if the graph is not planar; the positions are not modelled. -/
def planarLayout (nx : Nx) (G : NxGraph ℕ) : Except PyErr Unit :=
  if G.nodes = [] then .ok ()
  else if (nx.checkPlanarity G).isSome then .ok () else .error .networkXError

open Classical in
/-- The loop body of `plot_planar_embedding`, ff_graph_theory.py:221-244. -/
noncomputable def drawArrow {m n : ℕ} (pfo : Matrix (Fin m) (Fin n) ℝ) (e : Dart) : Out Unit := do
  let L := min e.1 e.2
  let R := max e.1 e.2
  let x ← quiet (get2 pfo L R)
  if x < 0 then emit (.arrow L R)
  else if x > 0 then emit (.arrow R L)
  else pure ()

/-- A `for` loop without a value. -/
def forEach {α : Type} (f : α → Out Unit) : List α → Out Unit
  | [] => pure ()
  | a :: l => do
    f a
    forEach f l

/-- Lines 218-244 of `plot_planar_embedding`. -/
noncomputable def drawOrientation {m n : ℕ} (G : NxGraph ℕ) : Option (Matrix (Fin m) (Fin n) ℝ) → Out Unit
  | none => pure ()
  | some pfo => do
    emit (.title "Planar Embedding with Oriented Faces")
    forEach (drawArrow pfo) G.edges

/-- Lines 245-246 of `plot_planar_embedding`; the empty string is false. -/
def drawTitle : Option String → Out Unit
  | none => pure ()
  | some s => when (s ≠ "") (emit (.title s))

/-- `plot_planar_embedding(G, pfo, title)`, ff_graph_theory.py:203-248, for a graph with integer nodes. -/
noncomputable def plotPlanarEmbedding {m n : ℕ} (nx : Nx) (G : NxGraph ℕ) (pfo : Option (Matrix (Fin m) (Fin n) ℝ))
    (title : Option String) : Out Unit := do
  quiet (planarLayout nx G)
  emit (.nodes G.nodes)
  emit (.edges G.edges "gray")
  emit (.labels G.nodes)
  drawOrientation G pfo
  drawTitle title
  emit .show

/-! ## The messages of complete_face and find_perfect_matchings_brute -/

/-- `str` of a list of edges. -/
def showDarts (l : List Dart) : String :=
  "[" ++ ", ".intercalate (l.map fun d => "(" ++ toString d.1 ++ ", " ++ toString d.2 ++ ")") ++ "]"

/-- `complete_face(pfo, edges)` with its messages, ff_graph_theory.py:390-451, for `verbose=False`. -/
noncomputable def completeFaceOut {n : ℕ} (pfo : Matrix (Fin n) (Fin n) ℂ) (edges : List Dart) :
    Out (Matrix (Fin n) (Fin n) ℂ × Bool) := do
  let s ← quiet (scanFace pfo edges)
  when (s.2.length = 0) (emit (.print ("no unassigned edges among: " ++ showDarts edges)))
  when (s.2.length > 1) (emit (.print ("more than one unassigned edge: " ++ showDarts s.2)))
  quiet (completeFace pfo edges)

/-- `find_perfect_matchings_brute(graph)` with its warning, ff_graph_theory.py:503-531. -/
def findPerfectMatchingsBruteOut (G : NxGraph ℕ) : Out (List (List (ℕ × ℕ))) := do
  when (G.nodes.length % 2 = 0 ∧ G.nodes.length > 15) (emit (.print "Warning brute force approach too expensive"))
  pure (findPerfectMatchingsBrute G)

/-! ## pfo_algorithm with its messages and plots -/

/-- `nx.to_numpy_array(T)` for the spanning tree `T`, which has the nodes and the weights of the graph. -/
def treeArray (G : NxGraph ℕ) (T : List Dart) : Matrix (Fin G.nodes.length) (Fin G.nodes.length) ℝ :=
  NxGraph.adjacency { G with edges := T }

/-- `np.real(orientation)`. -/
def npReal {n : ℕ} (o : Matrix (Fin n) (Fin n) ℂ) : Matrix (Fin n) (Fin n) ℝ := fun i j => (o i j).re

/-- Lines 614-622 of `pfo_algorithm`. -/
noncomputable def processLeavesOut (nx : Nx) (G : NxGraph ℕ) (verbose : Bool) (F : List (List Dart)) (leaves : List ℕ)
    (s : NxGraph ℕ × Matrix (Fin G.nodes.length) (Fin G.nodes.length) ℂ) :
    Out (NxGraph ℕ × Matrix (Fin G.nodes.length) (Fin G.nodes.length) ℂ) :=
  leaves.foldlM (fun s leaf => do
    let face ← quiet (listGet F leaf)
    let r ← completeFaceOut s.2 face
    when verbose
      (plotPlanarEmbedding nx G (some (npReal r.1)) (some ("Face " ++ toString leaf ++ ": " ++ showDarts face)))
    pure (s.1.removeNode leaf, r.1)) s

/-- Lines 605-622 of `pfo_algorithm`; the first number bounds the number of iterations. -/
noncomputable def leafLoopOut (nx : Nx) (G : NxGraph ℕ) (verbose : Bool) (F : List (List Dart)) (root : ℕ) :
    ℕ → NxGraph ℕ × Matrix (Fin G.nodes.length) (Fin G.nodes.length) ℂ →
      Out (Matrix (Fin G.nodes.length) (Fin G.nodes.length) ℂ)
  | 0, s => if s.1.nodes.length > 1 then quiet (.error .outOfFuel) else pure s.2
  | fuel + 1, s =>
    if s.1.nodes.length > 1 then
      let leaves := s.1.nodes.filter fun x => s.1.degree x = 1 ∧ x ≠ root
      if leaves = [] then pure s.2
      else do
        let s ← processLeavesOut nx G verbose F leaves s
        leafLoopOut nx G verbose F root fuel s
    else pure s.2

/-- Lines 572-576 of `pfo_algorithm`. -/
noncomputable def plotDual (nx : Nx) (F : List (List Dart)) (H : NxGraph ℕ) : Out Unit := do
  plotPlanarEmbedding (m := 0) (n := 0) nx H none (some "H")
  emit (.print (toString F.length))
  forEach (fun f => emit (.print ("F[" ++ toString f.2 ++ "] " ++ showDarts f.1))) ((F.take 5).zipIdx)

open Classical in
/-- Lines 624-634 of `pfo_algorithm`. -/
noncomputable def finishPfo (nx : Nx) (G : NxGraph ℕ) (verbose : Bool)
    (orientation : Matrix (Fin G.nodes.length) (Fin G.nodes.length) ℂ) :
    Out (Matrix (Fin G.nodes.length) (Fin G.nodes.length) ℝ) := do
  emit (.print (if ∑ i, ∑ j, (orientation i j).im > 1e-16 then "Incomplete pfo" else "Complete pfo"))
  when verbose (plotPlanarEmbedding nx G (some (npReal orientation)) (some "Constructed PFO"))
  pure (npReal orientation)

open Classical in
/-- Lines 568-634 of `pfo_algorithm`. -/
noncomputable def pfoFromFaces (nx : Nx) (G : NxGraph ℕ) (verbose : Bool)
    (orientation : Matrix (Fin G.nodes.length) (Fin G.nodes.length) ℂ) (F : List (List Dart)) :
    Out (Matrix (Fin G.nodes.length) (Fin G.nodes.length) ℝ) := do
  let T := nx.maximumSpanningTree G
  let H := dualGraphH nx G F T
  when verbose (plotDual nx F H)
  if ¬ H.isTree then do
    emit (.print ("Graph with " ++ toString H.nodes.length ++ " nodes and " ++ toString H.edges.length ++ " edges"))
    quiet (.error .assertionError)
  else do
    let orientation ← quiet (orientTree T orientation)
    when verbose (plotPlanarEmbedding nx G (some (npReal orientation)) none)
    let root ← quiet (maxNode H.nodes)
    let orientation ← leafLoopOut nx G verbose F root H.nodes.length (H, orientation)
    finishPfo nx G verbose orientation

/-- `pfo_algorithm(graph, verbose)`, ff_graph_theory.py:534-634, with everything it prints and plots. -/
noncomputable def pfoAlgorithmOut (nx : Nx) (G : NxGraph ℕ) (verbose : Bool) :
    Out (Matrix (Fin G.nodes.length) (Fin G.nodes.length) ℝ) := do
  when verbose
    (plotPlanarEmbedding nx G (some fun i j => -10 * treeArray G (nx.maximumSpanningTree G) i j) (some "T"))
  let A ← quiet (adjacencyMatrix G)
  let F ← quiet (faces nx G (nx.checkPlanarity G))
  match F with
  | none => quiet (.error .typeError)
  | some F => pfoFromFaces nx G verbose (fun i j => (A i j : ℂ) * (99 * Complex.I)) F

/-! ## Counting with messages -/

/-- `dt_eigen(A)` with its message for square arrays, ff_combinatorics.py:181-212. -/
def dtEigenOut (eigvals : {n : ℕ} → Matrix (Fin n) (Fin n) ℂ → Except PyErr (List ℂ)) {n : ℕ}
    (A : Matrix (Fin n) (Fin n) ℂ) : Out (Option ℂ) := do
  when (eigvals A matches .error .linAlgError) (emit (.print "Eigenvalue decomposition failed."))
  quiet (dtEigen eigvals A)

/-- `count_perfect_matchings_planar(graph)` with its messages, ff_graph_theory.py:473-500. -/
noncomputable def countPerfectMatchingsPlanarOut
    (eigvals : {n : ℕ} → Matrix (Fin n) (Fin n) ℂ → Except PyErr (List ℂ)) (nx : Nx) (G : NxGraph ℕ) :
    Out CleanRes :=
  if (nx.checkPlanarity G).isNone then quiet (.error .assertionError)
  else if G.nodes.length = 0 then pure (.real 0)
  else do
    let A ← quiet (adjacencyMatrix G)
    let pfo ← pfoAlgorithmOut nx G false
    let d ← dtEigenOut eigvals ((pfoMatrix pfo A).map (fun x : ℝ => (x : ℂ)))
    let z ← quiet (npSqrt d)
    quiet (clean (.complex z) (.int 10))

/-- `count_perfect_matchings(graph)` with its messages, ff_graph_theory.py:454-470. -/
noncomputable def countPerfectMatchingsOut
    (eigvals : {n : ℕ} → Matrix (Fin n) (Fin n) ℂ → Except PyErr (List ℂ)) (nx : Nx) (G : NxGraph ℕ) :
    Out CleanRes :=
  if (nx.checkPlanarity G).isSome then countPerfectMatchingsPlanarOut eigvals nx G
  else do
    let l ← findPerfectMatchingsBruteOut G
    pure (.real l.length)

/-! ## plot_graph_with_edge_weights -/

/-- Lines 163-165 of `plot_graph_with_edge_weights`. Drawing an edge with a node that is not in the graph raises
KeyError. -/
noncomputable def drawMatching (G : WeightedGraph) : Option (List Dart) → Out Unit
  | none => pure ()
  | some l => if ∀ e ∈ l, e.1 ∈ G.nodes ∧ e.2 ∈ G.nodes then emit (.edges l "red") else quiet (.error .keyError)

/-- `plot_graph_with_edge_weights(A, matching, title)`, ff_graph_theory.py:96-174 with `_draw_labeled_graph` and
`_draw_labeled_multigraph` (29-93), for a real square array. `nx.shell_layout` does not fail. -/
noncomputable def plotGraphWithEdgeWeightsOut {n : ℕ} (A : Matrix (Fin n) (Fin n) ℝ) (matching : Option (List Dart))
    (title : Option String) : Out WeightedGraph := do
  let G := plotGraphWithEdgeWeights A
  emit (.nodes G.nodes)
  emit (.labels G.nodes)
  emit (.edges (G.edges.map fun e => (e.1, e.2.1)) "grey")
  emit (.edgeLabels G.edges)
  drawMatching G matching
  emit (.title (title.getD "Graph A with Edge Weights"))
  emit .show
  pure G

end FF
