import Verif.Props.GraphCount
import Verif.Proofs.Bfs
import Verif.Proofs.Random
import Verif.Spec.Random

/-!
# Properties C82-C84 and the graph part of C53: random planar graphs, depth of trees, graphs of matrices
-/

namespace FF.Props

/-! ## C82 -/

section random
variable {σ : Type} (rng : GraphRng σ) (nx : Nx)

/-- Acceptance of an attempt: planar and connected. -/
def Accepted (G : NxGraph ℕ) : Prop := (nx.checkPlanarity G).isSome ∧ G.isConnected

theorem stateAfter_succ' (n : ℕ) (s : σ) (k : ℕ) :
    Spec.stateAfter rng n s (k + 1) = Spec.stateAfter rng n (Spec.attempt rng n s).2 k := rfl

theorem graphOf_succ' (n : ℕ) (s : σ) (k : ℕ) :
    Spec.graphOf rng n s (k + 1) = Spec.graphOf rng n (Spec.attempt rng n s).2 k := rfl

theorem exec_attempts {n : ℕ} (hn : 2 ≤ n) : ∀ (j : ℕ) (s : σ),
    (∃ k < j, (∀ i < k, ¬ Accepted nx (Spec.graphOf rng n s i)) ∧ Accepted nx (Spec.graphOf rng n s k) ∧
      (planarAttempts rng nx n j).exec s = (.ok (some (Spec.graphOf rng n s k)), Spec.stateAfter rng n s (k + 1))) ∨
    ((∀ i < j, ¬ Accepted nx (Spec.graphOf rng n s i)) ∧
      (planarAttempts rng nx n j).exec s = (.ok none, Spec.stateAfter rng n s j)) := by
  classical
  intro j
  induction j with
  | zero => intro s; right; exact ⟨by simp, rfl⟩
  | succ j ih =>
    intro s
    have h1 : (pyRandint rng ((n : ℤ) - 1) (2 * n - 3)).exec s = (.ok (rng.randint (n - 1) (2 * n - 3) s).1,
        (rng.randint (n - 1) (2 * n - 3) s).2) := by
      rw [pyRandint, if_pos (by omega), exec_draw]
    by_cases ha : Accepted nx (Spec.attempt rng n s).1
    · left
      refine ⟨0, by omega, by simp, ha, ?_⟩
      rw [planarAttempts, exec_bind_ok h1, exec_bind_ok (exec_draw _ _)]
      exact (congrArg (fun m : Rand σ (Option (NxGraph ℕ)) => m.exec (Spec.attempt rng n s).2) (if_pos ha)).trans rfl
    · have h2 : (planarAttempts rng nx n (j + 1)).exec s = (planarAttempts rng nx n j).exec (Spec.attempt rng n s).2 := by
        rw [planarAttempts, exec_bind_ok h1, exec_bind_ok (exec_draw _ _)]
        exact congrArg (fun m : Rand σ (Option (NxGraph ℕ)) => m.exec (Spec.attempt rng n s).2) (if_neg ha)
      rcases ih (Spec.attempt rng n s).2 with ⟨k, hk, hrej, hacc, he⟩ | ⟨hrej, he⟩
      · left
        refine ⟨k + 1, by omega, ?_, hacc, ?_⟩
        · intro i hi
          cases i with
          | zero => exact ha
          | succ i => rw [graphOf_succ']; exact hrej i (by omega)
        · rw [h2, he]
          rfl
      · right
        refine ⟨?_, ?_⟩
        · intro i hi
          cases i with
          | zero => exact ha
          | succ i => rw [graphOf_succ']; exact hrej i (by omega)
        · rw [h2, he]
          rfl

/-- C82: whatever the draws, for `n ≥ 2` the function returns the first attempt that is planar and connected, or,
after exactly 1000 rejected attempts, `None`; the generator has advanced by the attempts made and no more. -/
theorem C82_random_planar {n : ℕ} (hn : 2 ≤ n) (s : σ) :
    (∃ k < 1000, (∀ i < k, ¬ Accepted nx (Spec.graphOf rng n s i)) ∧ Accepted nx (Spec.graphOf rng n s k) ∧
      (generateRandomPlanarGraph rng nx n none).exec s =
        (.ok (some (Spec.graphOf rng n s k)), Spec.stateAfter rng n s (k + 1))) ∨
    ((∀ i < 1000, ¬ Accepted nx (Spec.graphOf rng n s i)) ∧
      (generateRandomPlanarGraph rng nx n none).exec s = (.ok none, Spec.stateAfter rng n s 1000)) :=
  exec_attempts rng nx hn 1000 s

/-- C82: a non-zero seed starts the same process from the seeded state. -/
theorem C82_seeded {n : ℕ} (k : ℤ) (hk : k ≠ 0) (s : σ) :
    (generateRandomPlanarGraph rng nx n (some k)).exec s = (generateRandomPlanarGraph rng nx n none).exec (rng.seeded k) := by
  unfold generateRandomPlanarGraph
  simp only [if_pos hk]
  rfl

/-- C82: every graph returned is a simple connected planar graph on `0, …, n-1`, inserted in this order, with at least
`n-1` and at most `2n-3` edges, so that `C77` and `C78` apply to it. -/
theorem C82_returned (hd : Spec.GraphDrawsOk rng) {n : ℕ} (hn : 2 ≤ n) (s : σ) {G : NxGraph ℕ} {s' : σ}
    (h : (generateRandomPlanarGraph rng nx n none).exec s = (.ok (some G), s')) :
    Spec.IsSimple G ∧ G.nodes = List.range n ∧ Spec.IsNumbered G ∧ G.isConnected ∧ (nx.checkPlanarity G).isSome ∧
      n - 1 ≤ G.edges.length ∧ G.edges.length ≤ 2 * n - 3 ∧ G.edges ≠ [] ∧ ∀ u v, G.weight u v = 1 := by
  rcases C82_random_planar rng nx hn s with ⟨k, -, -, hacc, he⟩ | ⟨-, he⟩
  · rw [he] at h
    simp only [Prod.mk.injEq, Except.ok.injEq, Option.some.injEq] at h
    obtain ⟨rfl, -⟩ := h
    obtain ⟨hp, hc⟩ := hacc
    unfold Spec.graphOf Spec.attempt at *
    set t := Spec.stateAfter rng n s k
    obtain ⟨hm1, hm2⟩ := hd.randint ((n : ℤ) - 1) (2 * n - 3) t (by omega)
    have h0 : 0 ≤ (rng.randint ((n : ℤ) - 1) (2 * n - 3) t).1 := by omega
    have hnodes := hd.nodes n _ (rng.randint ((n : ℤ) - 1) (2 * n - 3) t).2 h0
    have hedges := hd.edges n _ (rng.randint ((n : ℤ) - 1) (2 * n - 3) t).2 h0
    have hch : (n : ℤ) - 1 ≤ (n.choose 2 : ℤ) := by
      obtain ⟨m, rfl⟩ : ∃ m, n = m + 2 := ⟨n - 2, by omega⟩
      have : m + 1 ≤ (m + 2).choose 2 := by
        rw [Nat.choose_succ_succ' (m + 1) 1, Nat.choose_one_right]
        omega
      push_cast
      omega
    have hlb : (n : ℤ) - 1 ≤ ((rng.gnm n (rng.randint ((n : ℤ) - 1) (2 * n - 3) t).1
        (rng.randint ((n : ℤ) - 1) (2 * n - 3) t).2).1.edges.length : ℤ) := by
      rw [hedges]; exact le_min hm1 hch
    have hub : ((rng.gnm n (rng.randint ((n : ℤ) - 1) (2 * n - 3) t).1
        (rng.randint ((n : ℤ) - 1) (2 * n - 3) t).2).1.edges.length : ℤ) ≤ 2 * n - 3 := by
      rw [hedges]; exact (min_le_left _ _).trans hm2
    refine ⟨hd.simple _ _ _ h0, hnodes, ?_, hc, hp, ?_, ?_, ?_, hd.weight _ _ _⟩
    · unfold Spec.IsNumbered
      rw [hnodes, List.length_range]
    · omega
    · omega
    · intro h
      rw [h] at hlb
      simp at hlb
      omega
  · rw [he] at h
    simp at h

/-- C82: for `n ≤ 1` the range of `randint` is empty and ValueError is raised. -/
theorem C82_small {n : ℤ} (hn : n ≤ 1) (s : σ) :
    (generateRandomPlanarGraph rng nx n none).exec s = (.error .valueError, s) := by
  have h1 : (pyRandint rng (n - 1) (2 * n - 3)).exec s = (.error .valueError, s) := by
    rw [pyRandint, if_neg (by omega)]
    rfl
  exact exec_bind_error h1

/-- C82 with C78: perfect matchings of the graphs returned are counted correctly. -/
theorem C82_count {eigvals : {n : ℕ} → Matrix (Fin n) (Fin n) ℂ → Except PyErr (List ℂ)} (hev : EigvalsContract eigvals)
    (hsucc : ∀ {n : ℕ} (A : Matrix (Fin n) (Fin n) ℂ), ∃ l, eigvals A = .ok l) {nx : Nx} (hnx : Spec.NxContract nx)
    (hd : Spec.GraphDrawsOk rng) {n : ℕ} (hn : 2 ≤ n) (s : σ) {G : NxGraph ℕ} {s' : σ}
    (h : (generateRandomPlanarGraph rng nx n none).exec s = (.ok (some G), s')) :
    countPerfectMatchings eigvals nx G = .ok (.real (Spec.matchings G).card) := by
  obtain ⟨h1, -, h3, h4, h5, -, -, h8, h9⟩ := C82_returned rng nx hd hn s h
  exact C79_count_partial hev hsucc hnx h1 (fun _ _ => h9 _ _) (Or.inl ⟨h5, h3, h4, h8⟩)

end random

/-- a generator meeting the contract: the numbers `0, 1, …` and the first edges of the complete graph -/
def demoGraphRng : GraphRng ℕ where
  seeded := fun s => s.natAbs
  randint := fun a b s => (a + s % (b + 1 - a), s + 1)
  gnm := fun n m s => ({ completeG n with edges := (completeG n).edges.take m.toNat }, s + 1)

theorem length_completeG (n : ℕ) : (completeG n).edges.length = n.choose 2 := by
  classical
  have h1 : (completeG n).edges.toFinset.card = ((Finset.range n).sigma fun j => Finset.range j).card := by
    apply Finset.card_bij' (fun e _ => (⟨e.2, e.1⟩ : (_ : ℕ) × ℕ)) (fun e _ => (e.2, e.1))
    · intro e he
      rw [List.mem_toFinset, mem_completeG] at he
      simp only [Finset.mem_sigma, Finset.mem_range]
      omega
    · intro e he
      simp only [Finset.mem_sigma, Finset.mem_range] at he
      rw [List.mem_toFinset, mem_completeG]
      exact ⟨he.2, he.1⟩
    · intro e _; rfl
    · intro e _; rfl
  rw [← List.toFinset_card_of_nodup (completeG_nodup n), h1, Finset.card_sigma]
  simp only [Finset.card_range]
  rw [Finset.sum_range_id, Nat.choose_two_right]

theorem demoGraphRng_ok : Spec.GraphDrawsOk demoGraphRng := by
  refine ⟨?_, ?_, fun _ _ _ _ => rfl, ?_, fun _ _ _ _ _ => rfl⟩
  · intro a b s hab
    have h1 := Int.emod_nonneg (s : ℤ) (show b + 1 - a ≠ 0 by omega)
    have h2 := Int.emod_lt_of_pos (s : ℤ) (show 0 < b + 1 - a by omega)
    show a ≤ a + s % (b + 1 - a) ∧ a + s % (b + 1 - a) ≤ b
    omega
  · intro n m s _
    have h := completeG_simple n
    exact ⟨h.nodes_nodup, h.edges_nodup.sublist (List.take_sublist _ _), fun e he => h.mem e (List.mem_of_mem_take he),
      fun e he => h.ordered e (List.mem_of_mem_take he), fun _ _ => rfl⟩
  · intro n m s hm
    show (((completeG n).edges.take m.toNat).length : ℤ) = _
    rw [List.length_take, length_completeG]
    push_cast
    rw [Int.toNat_of_nonneg hm]

/-- the hypotheses of `C82_returned` are met: an edge is returned for `n = 2` -/
example : ∃ G s', (generateRandomPlanarGraph demoGraphRng someNx (2 : ℕ) none).exec 0 = (.ok (some G), s') := by
  rcases C82_random_planar demoGraphRng someNx (n := 2) (by omega) 0 with ⟨k, -, -, -, he⟩ | ⟨hrej, -⟩
  · exact ⟨_, _, he⟩
  · exfalso
    apply hrej 0 (by omega)
    have hs : Spec.IsSimple (Spec.graphOf demoGraphRng 2 0 0) := demoGraphRng_ok.simple _ _ _ (by decide)
    have hc : (Spec.graphOf demoGraphRng 2 0 0).isConnected := completeG_connected 2
    refine ⟨someNx_contract.complete _ (fun v _ => 1 - v) hs hc (by decide) ?_, hc⟩
    have hr : Spec.IsRotation (Spec.graphOf demoGraphRng 2 0 0) (fun v _ => 1 - v) :=
      isRotation_of (by decide) (by decide) (by decide)
    refine ⟨hr, ?_⟩
    rw [numFaces_of (F := [[(0, 1), (1, 0)]]) (by decide) hr (by rfl)]
    rfl

/-! ## C53, graphs -/

/-- C53: with a non-zero integer seed the outcome is independent of the state of the generator before the call.
Missing: the seed 0, for which this fails. -/
theorem C53_graph_partial {σ : Type} (rng : GraphRng σ) (nx : Nx) (n : ℤ) (k : ℤ) (hk : k ≠ 0) :
    Spec.Reproducible (generateRandomPlanarGraph rng nx n (some k)) := by
  intro s s'
  unfold generateRandomPlanarGraph
  simp only [if_pos hk]
  rfl

/-- C53 fails for the seed 0: `if seed:` treats it as no seed. -/
theorem C53_graph_zero_ignored {σ : Type} (rng : GraphRng σ) (nx : Nx) (n : ℤ) :
    generateRandomPlanarGraph rng nx n (some 0) = generateRandomPlanarGraph rng nx n none := rfl

/-- the path `1 - 0 - 2`, the first graph drawn by `demoGraphRng` -/
def wedge : NxGraph ℕ := { nodes := [0, 1, 2], edges := [(0, 1), (0, 2)] }

theorem wedge_simple : Spec.IsSimple wedge := ⟨by decide, by decide, by decide, by decide, fun _ _ => rfl⟩

theorem wedge_connected : wedge.isConnected := by
  apply isConnected_of 0
  intro u hu
  have e1 : wedge.hasEdge 1 0 := by decide
  have e2 : wedge.hasEdge 2 0 := by decide
  simp only [wedge, List.mem_cons, List.not_mem_nil, or_false] at hu
  rcases hu with rfl | rfl | rfl
  · exact Relation.ReflTransGen.refl
  · exact Relation.ReflTransGen.single e1
  · exact Relation.ReflTransGen.single e2

theorem wedge_planar : Spec.IsPlanarEmbedding wedge fun v u => if v = 0 then 3 - u else 0 := by
  have hr : Spec.IsRotation wedge fun v u => if v = 0 then 3 - u else 0 :=
    isRotation_of (by decide) (by decide) (by decide)
  refine ⟨hr, ?_⟩
  rw [numFaces_of (F := [[(0, 1), (1, 0), (0, 2), (2, 0)]]) (by decide) hr (by rfl)]
  rfl

/-- C53: so the results of two calls with seed 0 may differ, with a generator meeting the contract. -/
theorem C53_graph_zero {nx : Nx} (hnx : Spec.NxContract nx) : ∃ rng : GraphRng ℕ, Spec.GraphDrawsOk rng ∧
    ¬ Spec.Reproducible (generateRandomPlanarGraph rng nx 3 (some 0)) := by
  refine ⟨demoGraphRng, demoGraphRng_ok, fun h => ?_⟩
  have h01 := h 0 1
  rw [C53_graph_zero_ignored] at h01
  have g0 : Spec.graphOf demoGraphRng 3 0 0 = wedge := rfl
  have g1 : Spec.graphOf demoGraphRng 3 1 0 = upTriangle := rfl
  have hu : Accepted nx upTriangle :=
    ⟨hnx.complete _ _ upTriangle_simple upTriangle_connected (by decide) upTriangle_planar, upTriangle_connected⟩
  have hw : Accepted nx wedge :=
    ⟨hnx.complete _ _ wedge_simple wedge_connected (by decide) wedge_planar, wedge_connected⟩
  have e0 : ((generateRandomPlanarGraph demoGraphRng nx 3 none).exec 0).1 = .ok (some wedge) := by
    rcases C82_random_planar demoGraphRng nx (n := 3) (by omega) 0 with ⟨k, -, hk, -, he⟩ | ⟨hrej, -⟩
    · have : k = 0 := by
        by_contra hne
        exact hk 0 (by omega) (g0 ▸ hw)
      subst this
      have he' : (generateRandomPlanarGraph demoGraphRng nx 3 none).exec 0 = _ := he
      rw [he', g0]
    · exact absurd (g0 ▸ hw) (hrej 0 (by omega))
  have e1 : ((generateRandomPlanarGraph demoGraphRng nx 3 none).exec 1).1 = .ok (some upTriangle) := by
    rcases C82_random_planar demoGraphRng nx (n := 3) (by omega) 1 with ⟨k, -, hk, -, he⟩ | ⟨hrej, -⟩
    · have : k = 0 := by
        by_contra hne
        exact hk 0 (by omega) (g1 ▸ hu)
      subst this
      have he' : (generateRandomPlanarGraph demoGraphRng nx 3 none).exec 1 = _ := he
      rw [he', g1]
    · exact absurd (g1 ▸ hu) (hrej 0 (by omega))
  rw [e0, e1] at h01
  injection h01 with h01
  injection h01 with h01
  have := congrArg NxGraph.edges h01
  revert this
  decide

/-! ## C83 -/

/-- C83: for every tree the depth is the largest distance of a node from the first node; it is less than the number of
nodes, and 0 exactly for the tree with one node. -/
theorem C83_tree_depth {α : Type} [DecidableEq α] {G : NxGraph α} (hs : Spec.IsSimple G) {r : α} {rest : List α}
    (hn : G.nodes = r :: rest) (ht : G.isTree) :
    ∃ d, computeTreeDepth G = .ok d ∧ (∀ v ∈ G.nodes, ∃ k ≤ d, Spec.isDist G r v k) ∧
      (∃ v ∈ G.nodes, Spec.isDist G r v d) ∧ d < G.nodes.length ∧ (d = 0 ↔ G.nodes.length = 1) := by
  have hr : r ∈ G.nodes := by rw [hn]; simp
  have h0 : Spec.isDist G r r 0 := ⟨rfl, by simp⟩
  obtain ⟨d, hd, hmem, hmax⟩ := maxNode_spec (l := (singleSourceShortestPathLength G r).map Prod.snd) (by
    intro h
    have : ((r, 0) : α × ℕ) ∈ singleSourceShortestPathLength G r := (mem_sssp hs hr _).2 h0
    rw [List.map_eq_nil_iff] at h
    rw [h] at this
    simp at this)
  obtain ⟨⟨v, d'⟩, hv, hvd⟩ := List.mem_map.1 hmem
  have hvd' : d' = d := hvd
  subst hvd'
  have hdv : Spec.isDist G r v d' := (mem_sssp hs hr _).1 hv
  have hall : ∀ v ∈ G.nodes, ∃ k ≤ d', Spec.isDist G r v k := by
    intro w hw
    obtain ⟨k, hk⟩ := reach_of_path (ht.2 r hr w hw)
    obtain ⟨j, -, hj⟩ := exists_isDist hk
    exact ⟨j, hmax j (List.mem_map.2 ⟨(w, j), (mem_sssp hs hr _).2 hj, rfl⟩), hj⟩
  refine ⟨d', ?_, hall, ⟨v, reach_mem hs hr hdv.1, hdv⟩, isDist_lt hs hr hdv, ?_⟩
  · unfold computeTreeDepth
    split
    · rename_i h; rw [hn] at h; simp at h
    · rename_i r' _ h
      rw [hn] at h
      injection h with h1 _
      subst h1
      rw [if_neg (not_not.2 ht)]
      exact hd
  · constructor
    · rintro rfl
      have hone : ∀ v ∈ G.nodes, v = r := by
        intro v hv
        obtain ⟨k, hk, hd⟩ := hall v hv
        obtain rfl : k = 0 := by omega
        exact hd.1.symm
      have hsub : G.nodes ⊆ [r] := by intro x hx; simpa using hone x hx
      have := (hs.nodes_nodup.subperm hsub).length_le
      rw [hn] at this ⊢
      simp at this ⊢
      exact this
    · intro h1
      have := isDist_lt hs hr hdv
      omega

/-- C83: graphs that are not trees are rejected with ValueError. -/
theorem C83_not_tree {α : Type} [DecidableEq α] {G : NxGraph α} (hn : G.nodes ≠ []) (ht : ¬ G.isTree) :
    computeTreeDepth G = .error .valueError := by
  unfold computeTreeDepth
  split
  · rename_i h; exact absurd h hn
  · rw [if_pos ht]

/-- C83: a graph without nodes is rejected with the exception of networkx. -/
theorem C83_no_nodes {α : Type} [DecidableEq α] {G : NxGraph α} (hn : G.nodes = []) :
    computeTreeDepth G = .error .networkXError := by
  unfold computeTreeDepth
  rw [hn]

example : Spec.IsSimple shuffledPath ∧ shuffledPath.nodes = 1 :: [2, 0, 3] ∧ shuffledPath.isTree :=
  ⟨shuffledPath_simple, rfl, rfl, shuffledPath_connected⟩

example : squareGraph.nodes ≠ [] ∧ ¬ squareGraph.isTree := ⟨by decide, fun h => absurd h.1 (by decide)⟩

/-! ## C84 -/

/-- C84: the graph has the nodes `0, …, n-1`; it is undirected if the matrix is symmetric and directed if it is not
symmetric even up to numpy's tolerance. -/
theorem C84_kind {n : ℕ} (A : Matrix (Fin n) (Fin n) ℝ) :
    (plotGraphWithEdgeWeights A).nodes = List.range n ∧
    (A.IsSymm → (plotGraphWithEdgeWeights A).directed = false) ∧
    ((∃ i j, 1e-8 + 1e-5 * |A j i| < |A i j - A j i|) → (plotGraphWithEdgeWeights A).directed = true) ∧
    ((plotGraphWithEdgeWeights A).directed = true → ∃ i j, 1e-8 + 1e-5 * |A j i| < |A i j - A j i|) := by
  classical
  have hiff : allclose (A.map fun x : ℝ => (x : ℂ)) (A.map fun x : ℝ => (x : ℂ)).transpose ↔
      ∀ i j, |A i j - A j i| ≤ 1e-8 + 1e-5 * |A j i| := by
    unfold allclose isclose
    refine forall_congr' fun i => forall_congr' fun j => ?_
    simp only [Matrix.map_apply, Matrix.transpose_apply]
    rw [← Complex.ofReal_sub, Complex.norm_real, Complex.norm_real, Real.norm_eq_abs, Real.norm_eq_abs]
  refine ⟨rfl, ?_, ?_, ?_⟩
  · intro h
    simp only [plotGraphWithEdgeWeights, decide_eq_false_iff_not, not_not]
    rw [hiff]
    intro i j
    rw [h.apply i j, sub_self, abs_zero]
    positivity
  · rintro ⟨i, j, h⟩
    simp only [plotGraphWithEdgeWeights, decide_eq_true_eq]
    rw [hiff]
    intro h'
    exact absurd (h' i j) (not_le.2 h)
  · intro h
    simp only [plotGraphWithEdgeWeights, decide_eq_true_eq] at h
    rw [hiff] at h
    push Not at h
    exact h

/-- C84: there is one edge for every non-zero entry (above the diagonal, if the graph is undirected) and no other edge;
its weight is the entry rounded to four decimals. -/
theorem C84_edges {n : ℕ} (A : Matrix (Fin n) (Fin n) ℝ) :
    ((plotGraphWithEdgeWeights A).edges.map fun e => (e.1, e.2.1)).Nodup ∧
    (∀ i j : Fin n, (∃ w, (i.1, j.1, w) ∈ (plotGraphWithEdgeWeights A).edges) ↔
      A i j ≠ 0 ∧ ((plotGraphWithEdgeWeights A).directed = true ∨ i < j)) ∧
    (∀ e ∈ (plotGraphWithEdgeWeights A).edges, ∃ i j : Fin n, ∃ k : ℤ, e = (i.1, j.1, (k : ℝ) / 10 ^ 4) ∧
      |(k : ℝ) / 10 ^ 4 - A i j| ≤ 0.5e-4) := by
  classical
  have hmem : ∀ e, e ∈ (plotGraphWithEdgeWeights A).edges ↔ ∃ i j : Fin n, A i j ≠ 0 ∧
      ((plotGraphWithEdgeWeights A).directed = true ∨ i < j) ∧ e = (i.1, j.1, roundWeight (A i j)) := by
    intro e
    simp only [plotGraphWithEdgeWeights, List.mem_map, List.mem_filter, List.mem_flatMap, List.mem_finRange,
      true_and, decide_eq_true_eq, Prod.exists]
    constructor
    · rintro ⟨i, j, ⟨⟨i', j', hd, heq⟩, hne⟩, rfl⟩
      simp only [Prod.mk.injEq] at heq
      obtain ⟨rfl, rfl⟩ := heq
      exact ⟨i', j', hne, hd, rfl⟩
    · rintro ⟨i, j, hne, hd, rfl⟩
      exact ⟨i, j, ⟨⟨i, j, hd, rfl⟩, hne⟩, rfl⟩
  refine ⟨?_, ?_, ?_⟩
  · simp only [plotGraphWithEdgeWeights, List.map_map]
    refine List.Nodup.map ?_ (List.Nodup.filter _ ?_)
    · intro p q h
      simp only [Function.comp_apply, Prod.mk.injEq] at h
      exact Prod.ext (Fin.ext h.1) (Fin.ext h.2)
    · rw [List.nodup_flatMap]
      refine ⟨fun i _ => ((List.nodup_finRange n).filter _).map fun a b h => by simpa using h, ?_⟩
      refine (List.nodup_finRange n).imp ?_
      intro a b hab
      simp only [Function.onFun, List.disjoint_left, List.mem_map, not_exists, not_and]
      rintro p ⟨j, -, rfl⟩ k - h
      simp only [Prod.mk.injEq] at h
      exact hab h.1.symm
  · intro i j
    constructor
    · rintro ⟨w, h⟩
      obtain ⟨i', j', hne, hd, heq⟩ := (hmem _).1 h
      simp only [Prod.mk.injEq] at heq
      obtain ⟨h1, h2, -⟩ := heq
      obtain rfl := Fin.ext h1
      obtain rfl := Fin.ext h2
      exact ⟨hne, hd⟩
    · rintro ⟨hne, hd⟩
      exact ⟨_, (hmem _).2 ⟨i, j, hne, hd, rfl⟩⟩
  · intro e he
    obtain ⟨i, j, -, -, rfl⟩ := (hmem e).1 he
    refine ⟨i, j, rint (10e3 * A i j), ?_, ?_⟩
    · simp only [roundWeight]
      norm_num
    · have h := rint_near (10e3 * A i j)
      have h2 : (rint (10e3 * A i j) : ℝ) / 10 ^ 4 - A i j = ((rint (10e3 * A i j) : ℝ) - 10e3 * A i j) / 10 ^ 4 := by
        norm_num
        ring
      rw [h2, abs_div]
      rw [show |(10 : ℝ) ^ 4| = 10 ^ 4 by norm_num]
      rw [div_le_iff₀ (by norm_num)]
      norm_num at h ⊢
      linarith

/-- both kinds occur: a symmetric matrix, and one that is not -/
example : (!![0, 2; 2, 0] : Matrix (Fin 2) (Fin 2) ℝ).IsSymm ∧
    ∃ i j, 1e-8 + 1e-5 * |(!![0, 2; 1, 0] : Matrix (Fin 2) (Fin 2) ℝ) j i| <
      |(!![0, 2; 1, 0] : Matrix (Fin 2) (Fin 2) ℝ) i j - (!![0, 2; 1, 0] : Matrix (Fin 2) (Fin 2) ℝ) j i| := by
  refine ⟨?_, 0, 1, ?_⟩
  · ext i j
    fin_cases i <;> fin_cases j <;> rfl
  · norm_num

end FF.Props
