import Verif.Proofs.Pfo4
import Verif.Proofs.Plane
import Verif.Proofs.BruteMatchings
import Verif.Proofs.UtilsText
import Verif.Props.Combinatorics

/-!
# The result of `count_perfect_matchings_planar`
-/

namespace FF
open Verif.Kasteleyn FF.Props

theorem ctx_of {nx : Nx} (hnx : Spec.NxContract nx) {G : NxGraph ℕ} (hs : Spec.IsSimple G)
    (hn : ∀ v, v ∈ G.nodes ↔ v < G.nodes.length) (hc : G.isConnected) (he : G.edges ≠ []) {cw : ℕ → ℕ → ℕ} (hp : nx.checkPlanarity G = some cw) :
    ∃ F, faces nx G (some cw) = .ok (some F) ∧ faces nx G none = .ok (some F) ∧ Ctx G cw F := by
  have hpl := hnx.planar G cw hs hc he hp
  obtain ⟨F, -, hF, hl⟩ := faces_ok nx he hpl.rotation.mem hpl.rotation.inj
  refine ⟨_, hF, ?_, ⟨hs, hn, hc, he, hpl, hl.of_perm (moveOuter_perm _ _)⟩⟩
  rw [← hF]
  unfold faces
  have h1 : (none <|> nx.checkPlanarity G) = some cw := hp
  have h2 : (some cw <|> nx.checkPlanarity G) = some cw := rfl
  rw [h1, h2]

theorem numbered_lt {G : NxGraph ℕ} (hs : Spec.IsSimple G) (hn : Spec.IsNumbered G) {e : Dart} (he : e ∈ G.edges) :
    e.1 < e.2 ∧ e.1 < G.nodes.length ∧ e.2 < G.nodes.length := by
  have h1 := (hn.labels _).1 (hs.mem e he).1
  have h2 := (hn.labels _).1 (hs.mem e he).2
  have h3 := hs.ordered e he
  rw [hn.idxOf h1, hn.idxOf h2] at h3
  exact ⟨h3, h1, h2⟩

theorem numbered_up {G : NxGraph ℕ} (hs : Spec.IsSimple G) (hn : Spec.IsNumbered G) (T : List Dart) :
    ∀ e ∈ edgesNotInT G T, e.1 < e.2 := fun _ he => (numbered_lt hs hn (List.mem_of_mem_filter he)).1

theorem asc_iff {G : NxGraph ℕ} {T : List (ℕ × ℕ)} : (∀ e ∈ G.edges, ¬ (e ∈ T ∨ (e.2, e.1) ∈ T) → e.1 < e.2) ↔
    ∀ e ∈ edgesNotInT G T, e.1 < e.2 := by
  constructor
  · intro h e he
    obtain ⟨h1, h2⟩ := Ctx.mem_edgesNotInT.1 he
    exact h e h1 h2
  · intro h e h1 h2
    exact h e (Ctx.mem_edgesNotInT.2 ⟨h1, h2⟩)

theorem npRound_int (k : ℕ) (z : ℤ) : npRound k (z : ℝ) = z := by
  unfold npRound
  have h : ((z : ℝ) * 10 ^ (k : ℤ)) = ((z * 10 ^ k : ℤ) : ℝ) := by push_cast; rw [zpow_natCast]
  rw [h, rint_int]
  push_cast
  rw [zpow_natCast]
  field_simp

theorem npSqrt_sq (x : ℝ) : npSqrt (some (((x ^ 2 : ℝ)) : ℂ)) = .ok ((|x| : ℝ) : ℂ) := by
  simp only [npSqrt]
  congr 1
  have h : ((x ^ 2 : ℝ) : ℂ) ^ (1 / 2 : ℂ) = (((x ^ 2 : ℝ) ^ (1 / 2 : ℝ) : ℝ) : ℂ) := by
    rw [Complex.ofReal_cpow (sq_nonneg x)]
    norm_num
  rw [h, ← Real.sqrt_eq_rpow, Real.sqrt_sq_eq_abs]

theorem clean_real (x : ℝ) : clean (.complex (x : ℂ)) (.int 10) = .ok (.real (npRound 10 x)) := by
  rw [clean_int]
  simp only [cleanWith]
  rw [if_pos]
  · simp
  · simp

/-- the graph of those edges whose positions are also adjacent labels -/
noncomputable def commonGraph (G : NxGraph ℕ) : NxGraph ℕ :=
  open Classical in
  { nodes := G.nodes, weight := G.weight
    edges := G.edges.filter fun e => G.hasEdge (G.nodes.idxOf e.1) (G.nodes.idxOf e.2) }

theorem mem_commonGraph {G : NxGraph ℕ} {e : ℕ × ℕ} : e ∈ (commonGraph G).edges ↔
    e ∈ G.edges ∧ G.hasEdge (G.nodes.idxOf e.1) (G.nodes.idxOf e.2) := by
  simp [commonGraph]

theorem commonGraph_hasEdge {G : NxGraph ℕ} {u v : ℕ} : (commonGraph G).hasEdge u v ↔
    G.hasEdge u v ∧ G.hasEdge (G.nodes.idxOf u) (G.nodes.idxOf v) := by
  have : G.hasEdge (G.nodes.idxOf u) (G.nodes.idxOf v) ↔ G.hasEdge (G.nodes.idxOf v) (G.nodes.idxOf u) :=
    ⟨Or.symm, Or.symm⟩
  simp only [NxGraph.hasEdge, mem_commonGraph] at this ⊢
  tauto

theorem commonGraph_simple {G : NxGraph ℕ} (h : Spec.IsSimple G) : Spec.IsSimple (commonGraph G) :=
  ⟨h.nodes_nodup, h.edges_nodup.filter _, fun e he => h.mem e (mem_commonGraph.1 he).1,
    fun e he => h.ordered e (mem_commonGraph.1 he).1, h.weight_symm⟩

theorem mem_matchings_commonGraph {G : NxGraph ℕ} {M : Finset (ℕ × ℕ)} : M ∈ Spec.matchings (commonGraph G) ↔
    M ∈ Spec.matchings G ∧ ∀ e ∈ M, G.hasEdge (G.nodes.idxOf e.1) (G.nodes.idxOf e.2) := by
  rw [mem_matchings, mem_matchings]
  constructor
  · rintro ⟨h1, h2⟩
    have h1' := fun e (he : e ∈ M) => mem_commonGraph.1 (by simpa using h1 he)
    exact ⟨⟨fun e he => by simpa using (h1' e he).1, h2⟩, fun e he => (h1' e he).2⟩
  · rintro ⟨⟨h1, h2⟩, h3⟩
    refine ⟨fun e he => ?_, h2⟩
    rw [List.mem_toFinset, mem_commonGraph]
    exact ⟨by simpa using h1 he, h3 e he⟩

theorem commonGraph_adjacency {G : NxGraph ℕ} (h : Spec.IsSimple G) : (commonGraph G).adjacency = maskedAdjacency G := by
  refine funext fun (u : Fin G.nodes.length) => funext fun (v : Fin G.nodes.length) => ?_
  have hidx : ∀ i : Fin G.nodes.length, G.nodes.idxOf (G.nodes.get i) = i.1 := fun i => h.nodes_nodup.idxOf_getElem i.1 i.2
  unfold maskedAdjacency NxGraph.adjacency
  change (if (commonGraph G).hasEdge (G.nodes.get u) (G.nodes.get v) then (commonGraph G).weight (G.nodes.get u) (G.nodes.get v)
    else 0) = _
  by_cases h1 : G.hasEdge (G.nodes.get u) (G.nodes.get v) <;> by_cases h2 : G.hasEdge u.1 v.1
  · rw [if_pos (commonGraph_hasEdge.2 ⟨h1, by rw [hidx, hidx]; exact h2⟩), if_pos h2, if_pos h1]; rfl
  · rw [if_neg (fun hh => h2 (by have := (commonGraph_hasEdge.1 hh).2; rwa [hidx, hidx] at this)), if_neg h2]
  · rw [if_neg (fun hh => h1 (commonGraph_hasEdge.1 hh).1), if_pos h2, if_neg h1]
  · rw [if_neg (fun hh => h1 (commonGraph_hasEdge.1 hh).1), if_neg h2]

/-- the counting routine on a connected planar graph whose labels are `0 .. n-1` inserted in any order -/
theorem count_planar_labels {eigvals : {n : ℕ} → Matrix (Fin n) (Fin n) ℂ → Except PyErr (List ℂ)}
    (hev : EigvalsContract eigvals) (hsucc : ∀ {n : ℕ} (A : Matrix (Fin n) (Fin n) ℂ), ∃ l, eigvals A = .ok l)
    {nx : Nx} (hnx : Spec.NxContract nx) {G : NxGraph ℕ} (hs : Spec.IsSimple G)
    (hn : ∀ v, v ∈ G.nodes ↔ v < G.nodes.length) (hc : G.isConnected) (he : G.edges ≠ [])
    (hp : (nx.checkPlanarity G).isSome) (hup : ∀ e ∈ edgesNotInT G (nx.maximumSpanningTree G), e.1 < e.2) :
    countPerfectMatchingsPlanar eigvals nx G = .ok (.real (npRound 10 |Spec.matchingWeight (commonGraph G)|)) := by
  obtain ⟨cw, hcw⟩ := Option.isSome_iff_exists.1 hp
  obtain ⟨F, hF, -, c⟩ := ctx_of hnx hs hn hc he hcw
  have hpos := c.pos
  have hT := hnx.spanning G hs hc (by intro h; rw [h] at hpos; simp at hpos)
  obtain ⟨O, hO, hspec⟩ := pfoAlgorithm_ok c nx hT hup hnx.setOrder (by rw [hcw]; exact hF)
  obtain ⟨x, hx, hdet⟩ := det_pfoMatrix c hT hspec
  have hcs := commonGraph_simple hs
  have hx' := hf_adjacency hcs (adjacency_symm hcs)
  rw [commonGraph_adjacency hs] at hx'
  have hx := hx'.symm.trans hx
  injection hx with hx
  obtain ⟨d, hd, hd'⟩ := C10_dt_eigen eigvals hev ((pfoMatrix O G.adjacency).map (fun x : ℝ => (x : ℂ))) (hsucc _)
  rw [dt_ok] at hd'
  injection hd' with hd'
  have hdet' : d = ((x ^ 2 : ℝ) : ℂ) := by
    rw [← hd', ← hdet]
    exact (RingHom.map_det Complex.ofRealHom (pfoMatrix O G.adjacency)).symm
  unfold countPerfectMatchingsPlanar
  have hA : adjacencyMatrix G = .ok G.adjacency := by rw [adjacencyMatrix, if_neg (by omega)]
  rw [if_neg (by rw [hcw]; simp), if_neg (by omega)]
  simp only [bind, Except.bind, hA, hO, hd, pure, Except.pure]
  rw [hdet', npSqrt_sq, ← hx]
  exact clean_real _

theorem commonGraph_numbered {G : NxGraph ℕ} (hs : Spec.IsSimple G) (hn : Spec.IsNumbered G) :
    Spec.matchings (commonGraph G) = Spec.matchings G := by
  ext M
  rw [mem_matchings_commonGraph]
  refine ⟨fun h => h.1, fun h => ⟨h, fun e he => ?_⟩⟩
  rw [mem_matchings] at h
  have hE : e ∈ G.edges := by simpa using h.1 he
  have := numbered_lt hs hn hE
  rw [hn.idxOf this.2.1, hn.idxOf this.2.2]
  exact Or.inl hE

/-- the counting routine, whatever the eigenvalue routine returns: it takes the root of the product of what was returned
for a matrix whose determinant is the square of the weight -/
theorem count_planar_matrix {nx : Nx} (hnx : Spec.NxContract nx) {G : NxGraph ℕ} (hs : Spec.IsSimple G)
    (hn : Spec.IsNumbered G) (hc : G.isConnected) (he : G.edges ≠ []) (hp : (nx.checkPlanarity G).isSome) :
    ∃ M : Matrix (Fin G.nodes.length) (Fin G.nodes.length) ℝ, M.det = Spec.matchingWeight G ^ 2 ∧
      M.transpose = -M ∧ (∀ i j, |M i j| = |G.adjacency i j|) ∧
      ∀ {eigvals : {n : ℕ} → Matrix (Fin n) (Fin n) ℂ → Except PyErr (List ℂ)} {l : List ℂ},
        eigvals (M.map fun x : ℝ => (x : ℂ)) = .ok l →
        countPerfectMatchingsPlanar eigvals nx G = clean (.complex (l.prod ^ (1 / 2 : ℂ))) (.int 10) := by
  obtain ⟨cw, hcw⟩ := Option.isSome_iff_exists.1 hp
  obtain ⟨F, hF, -, c⟩ := ctx_of hnx hs hn.labels hc he hcw
  have hpos := c.pos
  have hT := hnx.spanning G hs hc (by intro h; rw [h] at hpos; simp at hpos)
  obtain ⟨O, hO, hspec⟩ := pfoAlgorithm_ok c nx hT (numbered_up hs hn _) hnx.setOrder (by rw [hcw]; exact hF)
  obtain ⟨x, hx, hdet⟩ := det_pfoMatrix c hT hspec
  have hcs := commonGraph_simple hs
  have hx' := hf_adjacency hcs (adjacency_symm hcs)
  rw [commonGraph_adjacency hs] at hx'
  have hx := hx'.symm.trans hx
  injection hx with hx
  refine ⟨pfoMatrix O G.adjacency, ?_, ?_, ?_, ?_⟩
  · rw [hdet, ← hx]
    have : Spec.matchingWeight (commonGraph G) = Spec.matchingWeight G := by
      rw [Spec.matchingWeight, commonGraph_numbered hs hn]; rfl
    rw [this]
  · ext i j
    exact (neg_sub _ _).symm
  · intro i j
    rw [pfoMatrix_eq c hspec, abs_mul]
    by_cases hij : c.toEmb.adj i j
    · rw [signed, if_pos hij]
      have : |chi ℝ (obit O i j)| = 1 := by
        unfold chi
        split <;> simp
      rw [this, one_mul]
    · rw [signed, if_neg hij, adjacency_numbered hn, if_neg (show ¬ G.hasEdge i.1 j.1 from hij)]
      simp
  · intro eigvals l hl
    unfold countPerfectMatchingsPlanar
    have hA : adjacencyMatrix G = .ok G.adjacency := by rw [adjacencyMatrix, if_neg (by omega)]
    rw [if_neg (by rw [hcw]; simp), if_neg (by omega)]
    have hd : dtEigen eigvals ((pfoMatrix O G.adjacency).map fun x : ℝ => (x : ℂ)) = .ok (some l.prod) := by
      unfold dtEigen
      rw [dif_neg (by simp)]
      have e : ((pfoMatrix O G.adjacency).map fun x : ℝ => (x : ℂ)).submatrix id (Fin.cast rfl) =
          (pfoMatrix O G.adjacency).map fun x : ℝ => (x : ℂ) := by ext; simp
      rw [e]
      simp only [hl, List.prod_eq_foldl]
    simp only [bind, Except.bind, hA, hO, hd, pure, Except.pure, npSqrt]

theorem count_planar_ok {eigvals : {n : ℕ} → Matrix (Fin n) (Fin n) ℂ → Except PyErr (List ℂ)}
    (hev : EigvalsContract eigvals) (hsucc : ∀ {n : ℕ} (A : Matrix (Fin n) (Fin n) ℂ), ∃ l, eigvals A = .ok l)
    {nx : Nx} (hnx : Spec.NxContract nx) {G : NxGraph ℕ} (hs : Spec.IsSimple G)
    (hn : Spec.IsNumbered G) (hc : G.isConnected) (he : G.edges ≠ []) (hp : (nx.checkPlanarity G).isSome) :
    countPerfectMatchingsPlanar eigvals nx G = .ok (.real (npRound 10 |Spec.matchingWeight G|)) := by
  rw [count_planar_labels hev hsucc hnx hs hn.labels hc he hp (numbered_up hs hn _)]
  rw [Spec.matchingWeight, commonGraph_numbered hs hn]
  rfl

end FF
