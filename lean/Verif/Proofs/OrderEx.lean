import Verif.Proofs.Count
import Verif.Proofs.GraphEx

/-!
# Graphs whose nodes were not inserted in increasing order
-/

namespace FF
open Relation

theorem dualScan_none_of {fe : List (List Dart)} {e : Dart} : ∀ {l : List (List Dart)}, (∀ f ∈ l, e ∉ f) → dualScan fe e none l = none
  | [], _ => rfl
  | f :: l, h => by
    rw [dualScan, if_neg (h f (by simp))]
    exact dualScan_none_of fun f hf => h f (by simp [hf])

/-- if every edge outside the tree is reported from its larger to its smaller node, the dual graph has no edges -/
theorem dual_descending (nx : Nx) (ho : ∀ l, (nx.setOrder l).Perm l) {G : NxGraph ℕ} {T : List Dart} (F : List (List Dart))
    (hd : ∀ e ∈ edgesNotInT G T, e.2 < e.1) :
    dualGraphH nx G F T = { nodes := List.range F.length, edges := [] } := by
  unfold dualGraphH
  have h : (nx.setOrder (edgesNotInT G T)).filterMap (fun e => dualScan (F.map fun f => f.map sortDart) e none
      (F.map fun f => f.map sortDart)) = [] := by
    rw [List.filterMap_eq_nil_iff]
    intro e he
    apply dualScan_none_of
    intro f hf hef
    obtain ⟨f, -, rfl⟩ := List.mem_map.1 hf
    obtain ⟨d, -, rfl⟩ := List.mem_map.1 hef
    have := hd _ ((ho _).mem_iff.1 he)
    simp only [sortDart] at this
    omega
  simp only [h, List.foldl_nil, List.length_map]

/-- such a graph is rejected as soon as it has more than one face -/
theorem pfo_descending {nx : Nx} (hnx : Spec.NxContract nx) {G : NxGraph ℕ} (hs : Spec.IsSimple G) (hc : G.isConnected)
    (hE : G.edges ≠ []) (hp : (nx.checkPlanarity G).isSome) (hd : ∀ e ∈ G.edges, e.2 < e.1)
    (hcyc : G.nodes.length ≤ G.edges.length) : pfoAlgorithm nx G = .error .assertionError := by
  obtain ⟨cw, hcw⟩ := Option.isSome_iff_exists.1 hp
  have hpl := hnx.planar G cw hs hc hE hcw
  obtain ⟨F, hF, hF', hl⟩ := faces_ok nx hE hpl.rotation.mem hpl.rotation.inj
  have hn : G.nodes.length ≠ 0 := by
    obtain ⟨e, es, he⟩ := List.exists_cons_of_ne_nil hE
    have := (hs.mem e (by rw [he]; simp)).1
    intro h
    rw [List.length_eq_zero_iff] at h
    rw [h] at this
    simp at this
  have hlen := (moveOuter_perm (nx.outerFace cw) F).length_eq
  have he := hpl.euler
  rw [hl.numFaces] at he
  unfold pfoAlgorithm
  simp only [bind, Except.bind, adjacencyMatrix, if_neg hn, hcw, hF']
  rw [dual_descending nx hnx.setOrder _ fun e he => hd e (List.mem_of_mem_filter he), if_pos]
  · rfl
  · rintro ⟨h, -⟩
    simp at h
    omega

/-! ## Trees with any labels -/

/-- a path on four nodes, inserted in the order `1, 2, 0, 3` -/
def shuffledPath : NxGraph ℕ := { nodes := [1, 2, 0, 3], edges := [(1, 2), (1, 0), (2, 3)] }

/-- its embedding -/
def pathCw (v u : ℕ) : ℕ := if v = 0 then 1 else if v = 3 then 2 else 2 * v - u

theorem shuffledPath_simple : Spec.IsSimple shuffledPath := ⟨by decide, by decide, by decide, by decide, fun _ _ => rfl⟩

theorem shuffledPath_connected : shuffledPath.isConnected := by
  apply isConnected_of 1
  intro u hu
  have e1 : shuffledPath.hasEdge 2 1 := by decide
  have e2 : shuffledPath.hasEdge 0 1 := by decide
  have e3 : shuffledPath.hasEdge 3 2 := by decide
  simp only [shuffledPath, List.mem_cons, List.not_mem_nil, or_false] at hu
  rcases hu with rfl | rfl | rfl | rfl
  · exact ReflTransGen.refl
  · exact ReflTransGen.single e1
  · exact ReflTransGen.single e2
  · exact (ReflTransGen.single e3).tail e1

theorem shuffledPath_planar : Spec.IsPlanarEmbedding shuffledPath pathCw := by
  have hr : Spec.IsRotation shuffledPath pathCw := isRotation_of (by decide) (by decide) (by decide)
  refine ⟨hr, ?_⟩
  rw [numFaces_of (F := [[(0, 1), (1, 2), (2, 3), (3, 2), (2, 1), (1, 0)]]) (by decide) hr (by rfl)]
  rfl

theorem shuffledPath_hasEdge {u v : ℕ} : shuffledPath.hasEdge u v ↔
    (u = 1 ∧ v = 2) ∨ (u = 2 ∧ v = 1) ∨ (u = 1 ∧ v = 0) ∨ (u = 0 ∧ v = 1) ∨ (u = 2 ∧ v = 3) ∨ (u = 3 ∧ v = 2) := by
  simp [NxGraph.hasEdge, shuffledPath]
  omega

theorem shuffledPath_tree {T : List Dart} (hT : Spec.IsSpanningTree shuffledPath T) : edgesNotInT shuffledPath T = [] := by
  have hadj : ∀ {a b}, ((a, b) ∈ T ∨ (b, a) ∈ T) → shuffledPath.hasEdge a b := by
    rintro a b (h | h)
    · exact hT.sub _ h
    · exact (hT.sub _ h).symm
  have key : ∀ (S : ℕ → Prop) (u v : ℕ), u ∈ shuffledPath.nodes → v ∈ shuffledPath.nodes → S u → ¬ S v →
      ∃ a b, S a ∧ ¬ S b ∧ ((a, b) ∈ T ∨ (b, a) ∈ T) := by
    intro S u v hu hv hSu hSv
    by_contra hcon
    apply hSv
    have := hT.conn u hu v hv
    clear hSv hv
    induction this with
    | refl => exact hSu
    | @tail b d _ h ih =>
      by_contra hd
      exact hcon ⟨b, d, ih, hd, h⟩
  unfold edgesNotInT
  rw [List.filter_eq_nil_iff]
  intro e he
  simp only [decide_not, Bool.not_eq_eq_eq_not, Bool.not_true, decide_eq_false_iff_not, not_not]
  simp only [shuffledPath, List.mem_cons, List.not_mem_nil, or_false] at he
  rcases he with rfl | rfl | rfl
  · obtain ⟨a, b, ha, hb, h⟩ := key (· ≤ 1) 1 2 (by decide) (by decide) (by omega) (by omega)
    have h' := hadj h
    rw [shuffledPath_hasEdge] at h'
    have h1 : a = 1 := by omega
    have h2 : b = 2 := by omega
    subst h1 h2
    exact h
  · obtain ⟨a, b, ha, hb, h⟩ := key (1 ≤ ·) 1 0 (by decide) (by decide) (by omega) (by omega)
    have h' := hadj h
    rw [shuffledPath_hasEdge] at h'
    have h1 : a = 1 := by omega
    have h2 : b = 0 := by omega
    subst h1 h2
    exact h
  · obtain ⟨a, b, ha, hb, h⟩ := key (· ≤ 2) 2 3 (by decide) (by decide) (by omega) (by omega)
    have h' := hadj h
    rw [shuffledPath_hasEdge] at h'
    have h1 : a = 2 := by omega
    have h2 : b = 3 := by omega
    subst h1 h2
    exact h

/-- `pfo_algorithm` indexes its array by node labels -/
theorem shuffledPath_pfo {nx : Nx} (hnx : Spec.NxContract nx) :
    ∃ O : Matrix (Fin 4) (Fin 4) ℝ, pfoAlgorithm nx shuffledPath = .ok O ∧ O 1 3 = 0 := by
  have hp := hnx.complete _ _ shuffledPath_simple shuffledPath_connected (by decide) shuffledPath_planar
  obtain ⟨cw, hcw⟩ := Option.isSome_iff_exists.1 hp
  have hpl := hnx.planar _ cw shuffledPath_simple shuffledPath_connected (by decide) hcw
  have hT := hnx.spanning _ shuffledPath_simple shuffledPath_connected (by decide)
  obtain ⟨F, hF, hF', hl⟩ := faces_ok nx (G := shuffledPath) (by decide) hpl.rotation.mem hpl.rotation.inj
  have hlen := (moveOuter_perm (nx.outerFace cw) F).length_eq
  have he : 4 + F.length = 3 + 2 := by
    have := hpl.euler
    rw [hl.numFaces] at this
    exact this
  have h1 : (moveOuter (nx.outerFace cw) F).length = 1 := by omega
  have hno := shuffledPath_tree hT
  have hH := dual_descending nx hnx.setOrder (G := shuffledPath) (T := nx.maximumSpanningTree shuffledPath)
    (moveOuter (nx.outerFace cw) F) (by rw [hno]; simp)
  rw [h1] at hH
  have htree : NxGraph.isTree ({ nodes := List.range 1, edges := [] } : NxGraph ℕ) := by
    refine ⟨rfl, ?_⟩
    intro u hu v hv
    simp at hu hv
    subst hu hv
    exact ReflTransGen.refl
  have hor := orientTree_ok (n := 4) (nx.maximumSpanningTree shuffledPath)
    (fun i j => (shuffledPath.adjacency i j : ℂ) * (99 * Complex.I)) (by
      intro e he
      have := hT.sub e he
      rw [shuffledPath_hasEdge] at this
      omega)
  refine ⟨fun i j => (treeArr (n := 4) (nx.maximumSpanningTree shuffledPath)
    (fun i j => (shuffledPath.adjacency i j : ℂ) * (99 * Complex.I)) i j).re, ?_, ?_⟩
  · unfold pfoAlgorithm
    simp only [bind, Except.bind, adjacencyMatrix]
    rw [if_neg (by decide)]
    simp only [hcw, hF']
    rw [if_neg (not_not.2 (hH ▸ htree))]
    simp only [hH]
    have hor' : orientTree (n := shuffledPath.nodes.length) (nx.maximumSpanningTree shuffledPath)
      (fun i j => (shuffledPath.adjacency i j : ℂ) * (99 * Complex.I)) = _ := hor
    simp only [hor']
    rfl
  · have hn : ¬ inT (nx.maximumSpanningTree shuffledPath) 1 3 := by
      rintro (h | h) <;> have := hT.sub _ h <;> rw [shuffledPath_hasEdge] at this <;> omega
    simp only [treeArr]
    rw [if_neg (show ¬ inT _ ((1 : Fin 4) : ℕ) ((3 : Fin 4) : ℕ) from hn)]
    simp

/-- the count is `0` although the path has a perfect matching -/
theorem shuffledPath_count {eigvals : {n : ℕ} → Matrix (Fin n) (Fin n) ℂ → Except PyErr (List ℂ)}
    (hev : Props.EigvalsContract eigvals) (hsucc : ∀ {n : ℕ} (A : Matrix (Fin n) (Fin n) ℂ), ∃ l, eigvals A = .ok l)
    {nx : Nx} (hnx : Spec.NxContract nx) :
    countPerfectMatchingsPlanar eigvals nx shuffledPath = .ok (.real 0) := by
  have hp := hnx.complete _ _ shuffledPath_simple shuffledPath_connected (by decide) shuffledPath_planar
  obtain ⟨cw, hcw⟩ := Option.isSome_iff_exists.1 hp
  obtain ⟨O, hO, h13⟩ := shuffledPath_pfo hnx
  obtain ⟨d, hd, hd'⟩ := Props.C10_dt_eigen eigvals hev ((pfoMatrix (n := 4) O shuffledPath.adjacency).map (fun x : ℝ => (x : ℂ))) (hsucc _)
  rw [dt_ok] at hd'
  injection hd' with hd'
  have hA : ∀ j : Fin 4, j ≠ 1 → shuffledPath.adjacency j (3 : Fin 4) = 0 := by
    intro j hj
    unfold NxGraph.adjacency
    have h : ∀ j : Fin 4, j ≠ 1 → ¬ shuffledPath.hasEdge ([1, 2, 0, 3].get j) 3 := by decide
    exact if_neg (h j hj)
  have hdet : d = ((0 : ℝ) ^ 2 : ℝ) := by
    rw [← hd']
    have : ((0 : ℝ) ^ 2 : ℝ) = 0 := by norm_num
    rw [this, Complex.ofReal_zero]
    apply Matrix.det_eq_zero_of_column_eq_zero 3
    intro j
    have hz : pfoMatrix (n := 4) O shuffledPath.adjacency j 3 = 0 := by
      simp only [pfoMatrix, npTriu]
      by_cases hj : j = 1
      · subst hj
        rw [if_pos (by decide), if_neg (by decide), h13]
        simp
      · have h3 : j ≤ 3 := by omega
        rw [if_pos h3, hA j hj]
        by_cases h' : j = 3
        · subst h'
          rw [if_pos (le_refl _), hA 3 (by decide)]
          simp
        · rw [if_neg (by omega)]
          simp
    rw [Matrix.map_apply, hz, Complex.ofReal_zero]
  unfold countPerfectMatchingsPlanar
  have hA : adjacencyMatrix shuffledPath = .ok shuffledPath.adjacency := by rw [adjacencyMatrix, if_neg (by decide)]
  rw [if_neg (by rw [hcw]; simp), if_neg (by decide)]
  have hd'' : dtEigen eigvals ((pfoMatrix (n := shuffledPath.nodes.length) O shuffledPath.adjacency).map (fun x : ℝ => (x : ℂ))) = _ := hd
  simp only [bind, Except.bind, hA, hO, hd'', pure, Except.pure]
  rw [hdet, npSqrt_sq]
  have := clean_real |(0 : ℝ)|
  rw [abs_zero] at this
  rw [abs_zero]
  refine this.trans ?_
  have h0 := npRound_int 10 0
  have h1 : npRound 10 0 = 0 := by exact_mod_cast h0
  rw [h1]

/-! ## A path -/

/-- a path on four nodes -/
def pathGraph : NxGraph ℕ := { nodes := [0, 1, 2, 3], edges := [(0, 1), (1, 2), (2, 3)] }

theorem pathGraph_simple : Spec.IsSimple pathGraph := ⟨by decide, by decide, by decide, by decide, fun _ _ => rfl⟩

theorem pathGraph_connected : pathGraph.isConnected := by
  apply isConnected_of 1
  intro u hu
  have e1 : pathGraph.hasEdge 2 1 := by decide
  have e2 : pathGraph.hasEdge 0 1 := by decide
  have e3 : pathGraph.hasEdge 3 2 := by decide
  simp only [pathGraph, List.mem_cons, List.not_mem_nil, or_false] at hu
  rcases hu with rfl | rfl | rfl | rfl
  · exact ReflTransGen.single e2
  · exact ReflTransGen.refl
  · exact ReflTransGen.single e1
  · exact (ReflTransGen.single e3).tail e1

theorem pathGraph_planar : Spec.IsPlanarEmbedding pathGraph pathCw := by
  have hr : Spec.IsRotation pathGraph pathCw := isRotation_of (by decide) (by decide) (by decide)
  refine ⟨hr, ?_⟩
  rw [numFaces_of (F := [[(0, 1), (1, 2), (2, 3), (3, 2), (2, 1), (1, 0)]]) (by decide) hr (by rfl)]
  rfl

/-! ## A triangle -/

/-- the triangle, inserted in decreasing order -/
def downTriangle : NxGraph ℕ := { nodes := [2, 1, 0], edges := [(2, 1), (2, 0), (1, 0)] }

/-- the triangle, inserted in increasing order -/
def upTriangle : NxGraph ℕ := { nodes := [0, 1, 2], edges := [(0, 1), (0, 2), (1, 2)] }

/-- its embedding -/
def triangleCw (v u : ℕ) : ℕ := 3 - v - u

theorem downTriangle_simple : Spec.IsSimple downTriangle := ⟨by decide, by decide, by decide, by decide, fun _ _ => rfl⟩
theorem upTriangle_simple : Spec.IsSimple upTriangle := ⟨by decide, by decide, by decide, by decide, fun _ _ => rfl⟩
theorem upTriangle_numbered : Spec.IsNumbered upTriangle := rfl

theorem upTriangle_connected : upTriangle.isConnected := by
  apply isConnected_of 1
  intro u hu
  have e1 : upTriangle.hasEdge 2 1 := by decide
  have e2 : upTriangle.hasEdge 0 1 := by decide
  simp only [upTriangle, List.mem_cons, List.not_mem_nil, or_false] at hu
  rcases hu with rfl | rfl | rfl
  · exact ReflTransGen.single e2
  · exact ReflTransGen.refl
  · exact ReflTransGen.single e1

theorem downTriangle_connected : downTriangle.isConnected := by
  apply isConnected_of 1
  intro u hu
  have e1 : downTriangle.hasEdge 2 1 := by decide
  have e2 : downTriangle.hasEdge 0 1 := by decide
  simp only [downTriangle, List.mem_cons, List.not_mem_nil, or_false] at hu
  rcases hu with rfl | rfl | rfl
  · exact ReflTransGen.single e1
  · exact ReflTransGen.refl
  · exact ReflTransGen.single e2

theorem upTriangle_planar : Spec.IsPlanarEmbedding upTriangle triangleCw := by
  have hr : Spec.IsRotation upTriangle triangleCw := isRotation_of (by decide) (by decide) (by decide)
  refine ⟨hr, ?_⟩
  rw [numFaces_of (F := [[(0, 1), (1, 2), (2, 0)], [(0, 2), (2, 1), (1, 0)]]) (by decide) hr (by rfl)]
  rfl

theorem downTriangle_planar : Spec.IsPlanarEmbedding downTriangle triangleCw := by
  have hr : Spec.IsRotation downTriangle triangleCw := isRotation_of (by decide) (by decide) (by decide)
  refine ⟨hr, ?_⟩
  rw [numFaces_of (F := [[(0, 1), (1, 2), (2, 0)], [(0, 2), (2, 1), (1, 0)]]) (by decide) hr (by rfl)]
  rfl

end FF
