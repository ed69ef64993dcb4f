import Verif.Model.Graph
import Mathlib.Data.Finset.Powerset
import Mathlib.Data.Set.Card
import Mathlib.Data.Sym.Sym2

/-!
# Specification: graphs, embeddings and perfect matchings

Vocabulary for the properties of `ff_graph_theory.py`, in terms of the data of a networkx graph only.
-/

namespace FF.Spec

variable {α : Type} [DecidableEq α]

/-- What every `nx.Graph` without self-loops satisfies: edges join two of its nodes, every edge is reported once,
from the node that was inserted first. -/
structure IsSimple (G : NxGraph α) : Prop where
  nodes_nodup : G.nodes.Nodup
  edges_nodup : G.edges.Nodup
  mem : ∀ e ∈ G.edges, e.1 ∈ G.nodes ∧ e.2 ∈ G.nodes
  ordered : ∀ e ∈ G.edges, G.nodes.idxOf e.1 < G.nodes.idxOf e.2
  weight_symm : ∀ u v, G.weight u v = G.weight v u

/-- The nodes are `0, 1, …, n-1`, inserted in this order. -/
def IsNumbered (G : NxGraph ℕ) : Prop := G.nodes = List.range G.nodes.length

/-- A perfect matching of `G`: a set of edges covering every node exactly once. -/
def IsPerfectMatchingOf (G : NxGraph α) (M : Finset (α × α)) : Prop :=
  M ⊆ G.edges.toFinset ∧ ∀ v ∈ G.nodes, ∃! e, e ∈ M ∧ (e.1 = v ∨ e.2 = v)

open Classical in
/-- All perfect matchings of `G`. -/
noncomputable def matchings (G : NxGraph α) : Finset (Finset (α × α)) :=
  G.edges.toFinset.powerset.filter (IsPerfectMatchingOf G)

/-- The sum over all perfect matchings of the product of their weights; without weights, the number of perfect
matchings. -/
noncomputable def matchingWeight (G : NxGraph α) : ℝ := ∑ M ∈ matchings G, ∏ e ∈ M, G.weight e.1 e.2

open Classical in
/-- The perfect matchings all of whose edges join two nodes whose positions in the order of insertion, read as labels, are
also adjacent. If the nodes `0, 1, …` were inserted in this order, these are all perfect matchings. -/
noncomputable def countedMatchings (G : NxGraph ℕ) : Finset (Finset (ℕ × ℕ)) :=
  (matchings G).filter fun M => ∀ e ∈ M, G.hasEdge (G.nodes.idxOf e.1) (G.nodes.idxOf e.2)

/-! ## Embeddings -/

/-- A rotation system: around every node `v` the map `cw v` runs cyclically through all neighbours of `v`. -/
structure IsRotation (G : NxGraph ℕ) (cw : ℕ → ℕ → ℕ) : Prop where
  mem : ∀ v u, G.hasEdge v u → G.hasEdge v (cw v u)
  inj : ∀ v u u', G.hasEdge v u → G.hasEdge v u' → cw v u = cw v u' → u = u'
  cyclic : ∀ v u u', G.hasEdge v u → G.hasEdge v u' → ∃ k, (cw v)^[k] u = u'

/-- The directed edge that follows `(u, v)` along the face to its side: turn clockwise at `v`. -/
def next (cw : ℕ → ℕ → ℕ) (d : ℕ × ℕ) : ℕ × ℕ := (d.2, cw d.2 d.1)

/-- The face along a directed edge, as a set of directed edges. -/
def faceOf (cw : ℕ → ℕ → ℕ) (d : ℕ × ℕ) : Set (ℕ × ℕ) := {e | ∃ k, (next cw)^[k] d = e}

/-- The number of faces of an embedding. -/
noncomputable def numFaces (G : NxGraph ℕ) (cw : ℕ → ℕ → ℕ) : ℕ :=
  Set.ncard {S | ∃ d : ℕ × ℕ, G.hasEdge d.1 d.2 ∧ S = faceOf cw d}

/-- An embedding in the plane of a connected graph with at least one edge: a rotation system satisfying Euler's
formula. -/
structure IsPlanarEmbedding (G : NxGraph ℕ) (cw : ℕ → ℕ → ℕ) : Prop where
  rotation : IsRotation G cw
  euler : G.nodes.length + numFaces G cw = G.edges.length + 2

/-- The list `f` of directed edges is a closed walk along a face. -/
def IsFaceWalk (cw : ℕ → ℕ → ℕ) (f : List (ℕ × ℕ)) : Prop :=
  f ≠ [] ∧ ∀ (i : ℕ) (h : i < f.length), f[(i + 1) % f.length]'(Nat.mod_lt _ (by omega)) = next cw f[i]

/-- `T` is a spanning tree of `G`: `n - 1` edges of `G` connecting all nodes. -/
structure IsSpanningTree (G : NxGraph ℕ) (T : List (ℕ × ℕ)) : Prop where
  sub : ∀ e ∈ T, G.hasEdge e.1 e.2
  card : T.length + 1 = G.nodes.length
  conn : ∀ u ∈ G.nodes, ∀ v ∈ G.nodes, Relation.ReflTransGen (fun a b => (a, b) ∈ T ∨ (b, a) ∈ T) u v

/-! ## Orientations -/

/-- The entry of an array at two natural numbers. -/
def entry {K : Type} [Zero K] {n : ℕ} (A : Matrix (Fin n) (Fin n) K) (i j : ℕ) : K :=
  if h : i < n ∧ j < n then A ⟨i, h.1⟩ ⟨j, h.2⟩ else 0

/-- The sign of a directed edge under an orientation: the entry above the diagonal, negated when the edge is
traversed from the larger to the smaller node. -/
def along {K : Type} [Ring K] {n : ℕ} (O : Matrix (Fin n) (Fin n) K) (d : ℕ × ℕ) : K :=
  if d.1 < d.2 then entry O d.1 d.2 else - entry O d.2 d.1

/-! ## Graphs with several components; isolated nodes play no role here -/

/-- The nodes that have a neighbour. -/
def touched (G : NxGraph ℕ) : Set ℕ := {v | ∃ u, G.hasEdge v u}

/-- The connected component of a node. -/
def component (G : NxGraph ℕ) (v : ℕ) : Set ℕ := {w | Relation.ReflTransGen G.hasEdge v w}

/-- The number of connected components that have an edge. -/
noncomputable def numComponents (G : NxGraph ℕ) : ℕ := Set.ncard {S | ∃ v ∈ touched G, S = component G v}

/-- An embedding in the plane of a graph: a rotation system satisfying Euler's formula for graphs with several
components, each of them drawn on its own sphere. -/
structure IsPlane (G : NxGraph ℕ) (cw : ℕ → ℕ → ℕ) : Prop where
  rotation : IsRotation G cw
  euler : (touched G).ncard + numFaces G cw = G.edges.length + 2 * numComponents G

/-- `T` is a spanning forest of `G`: edges of `G`, each at most once, connecting the end points of every edge of `G`, one
less than there are nodes in every component. -/
structure IsSpanningForest (G : NxGraph ℕ) (T : List (ℕ × ℕ)) : Prop where
  sub : ∀ e ∈ T, G.hasEdge e.1 e.2
  nodup : (T.map fun e => s(e.1, e.2)).Nodup
  conn : ∀ u v, G.hasEdge u v → Relation.ReflTransGen (fun a b => (a, b) ∈ T ∨ (b, a) ∈ T) u v
  card : T.length + numComponents G = (touched G).ncard

/-- What is assumed about networkx and about the iteration over a set. -/
structure NxContract (nx : Nx) : Prop where
  /-- `check_planarity` returns embeddings in the plane -/
  plane : ∀ G cw, IsSimple G → nx.checkPlanarity G = some cw → IsPlane G cw
  /-- it finds an embedding if there is one -/
  total : ∀ G cw, IsSimple G → IsPlane G cw → (nx.checkPlanarity G).isSome
  /-- `maximum_spanning_tree` returns a spanning forest -/
  forest : ∀ G, IsSimple G → IsSpanningForest G (nx.maximumSpanningTree G)
  /-- iterating over a set visits every element once -/
  setOrder : ∀ l : List Dart, (nx.setOrder l).Perm l

/-! ## Distances -/

/-- There is a walk of length `k` from `u` to `v`. -/
def reach {α : Type} (G : NxGraph α) : ℕ → α → α → Prop
  | 0, u, v => u = v
  | k + 1, u, v => ∃ w, reach G k u w ∧ G.hasEdge w v

/-- The distance of two nodes: the length of a shortest walk is `k`. -/
def isDist {α : Type} (G : NxGraph α) (u v : α) (k : ℕ) : Prop := reach G k u v ∧ ∀ j < k, ¬ reach G j u v

/-! ## Random graphs -/

/-- What is assumed about Python's `random` and about `nx.gnm_random_graph`: numbers in the range asked for, and
simple graphs on `0, …, n-1`, inserted in this order, with the number of edges asked for (all edges, if it is too
large). -/
structure GraphDrawsOk {σ : Type} (rng : GraphRng σ) : Prop where
  randint : ∀ a b s, a ≤ b → a ≤ (rng.randint a b s).1 ∧ (rng.randint a b s).1 ≤ b
  simple : ∀ n m s, 0 ≤ m → IsSimple (rng.gnm n m s).1
  nodes : ∀ n m s, 0 ≤ m → (rng.gnm n m s).1.nodes = List.range n
  edges : ∀ (n : ℕ) (m : ℤ) s, 0 ≤ m → ((rng.gnm n m s).1.edges.length : ℤ) = min m (n.choose 2)
  weight : ∀ n m s u v, (rng.gnm n m s).1.weight u v = 1

/-- One attempt of `generate_random_planar_graph(n)`: a graph and the new state of the generator. -/
def attempt {σ : Type} (rng : GraphRng σ) (n : ℕ) (s : σ) : NxGraph ℕ × σ :=
  rng.gnm n (rng.randint (n - 1) (2 * n - 3) s).1 (rng.randint (n - 1) (2 * n - 3) s).2

/-- The state of the generator after `k` attempts. -/
def stateAfter {σ : Type} (rng : GraphRng σ) (n : ℕ) (s : σ) (k : ℕ) : σ := (fun s => (attempt rng n s).2)^[k] s

/-- The graph of the attempt after `k` others. -/
def graphOf {σ : Type} (rng : GraphRng σ) (n : ℕ) (s : σ) (k : ℕ) : NxGraph ℕ :=
  (attempt rng n (stateAfter rng n s k)).1

end FF.Spec
