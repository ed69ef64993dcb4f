import Verif.Proofs.Circuit
import Verif.Props.Dynamics
import Verif.Props.Overlap

/-! # Property C166: sequences of free-fermion gates

A gate is `expm(-i t build_op(build_H(A, B)))`, and a circuit is a list of gates, the first one applied first. -/

namespace FF.Props

open Matrix
open scoped ComplexOrder

/-- The arguments of one gate: coefficients for `build_H` and a time. -/
structure Gate (n : ℕ) where
  A : Op n
  B : Op n
  t : ℝ
  herm : A.IsHermitian
  skew : Bᵀ = -B

variable {n : ℕ}

/-- `W` is the `2^n x 2^n` matrix of the gate. -/
def Gate.Is (g : Gate n) (W : Op (2 ^ n)) : Prop :=
  ∃ Q, buildOp n (buildH n g.A (some g.B)) (jordanWignerAlphas n) false = .ok Q ∧ W = expm ((-Complex.I * g.t) • Q)

/-- The `2n x 2n` matrix of the gate; coefficients below `1e-10` are skipped, as `build_op` does. -/
noncomputable def Gate.orbital (g : Gate n) : Op (n + n) :=
  expm ((-2 * Complex.I * g.t) • Spec.dropSmall 1e-10 (buildH n g.A (some g.B)))

/-- The matrices of the circuits: every gate is multiplied from the left to the earlier ones. -/
def inOrder {d : ℕ} (Ws : List (Op d)) : Op d := Ws.foldl (fun U W => W * U) 1

/-! ## Helper lemmas -/

theorem inOrder_concat {d : ℕ} (Ws : List (Op d)) (W : Op d) : inOrder (Ws ++ [W]) = W * inOrder Ws := by
  rw [inOrder, List.foldl_append]; rfl

theorem gate_quad {g : Gate n} (hn : 1 ≤ n) {W : Op (2 ^ n)} (h : g.Is W) :
    W = expm ((-Complex.I * g.t) • Spec.quad (Spec.dropSmall 1e-10 (buildH n g.A (some g.B))) (al n)) := by
  obtain ⟨Q, hQ, rfl⟩ := h
  rw [jordanWignerAlphas_eq, buildOp_square _ _ hn] at hQ
  rw [Except.ok.inj hQ]

theorem gate_orbital (g : Gate n) :
    g.orbital = expm ((-Complex.I * g.t) • adM (Spec.dropSmall 1e-10 (buildH n g.A (some g.B)))) := by
  rw [Gate.orbital, adM_ph (drop_ph g.A g.B g.herm g.skew), smul_smul]
  congr 2
  ring

theorem gate_acts {g : Gate n} (hn : 1 ≤ n) {W : Op (2 ^ n)} (h : g.Is W) : Acts W g.orbital := by
  intro k
  rw [gate_quad hn h, gate_orbital]
  exact heis_quad _ _ k

theorem gates_snoc {gs : List (Gate n)} {g : Gate n} {Ws : List (Op (2 ^ n))} (h : List.Forall₂ Gate.Is (gs ++ [g]) Ws) :
    ∃ Vs W, Ws = Vs ++ [W] ∧ List.Forall₂ Gate.Is gs Vs ∧ g.Is W := by
  have h1 := List.forall₂_take_append Ws gs [g] (List.Forall₂.flip h) |>.flip
  have h2 := List.forall₂_drop_append Ws gs [g] (List.Forall₂.flip h) |>.flip
  obtain ⟨Vs, Xs, hVs, hXs⟩ : ∃ Vs Xs, Vs = Ws.take gs.length ∧ Xs = Ws.drop gs.length := ⟨_, _, rfl, rfl⟩
  rw [← hVs] at h1
  rw [← hXs] at h2
  have hW : Ws = Vs ++ Xs := by rw [hVs, hXs, List.take_append_drop]
  clear hVs hXs
  subst hW
  obtain ⟨W, Ys, h3, h4, rfl⟩ := List.forall₂_cons_left_iff.1 h2
  obtain rfl := List.forall₂_nil_left_iff.1 h4
  exact ⟨Vs, W, rfl, h1, h3⟩

theorem circuit_acts (hn : 1 ≤ n) (gs : List (Gate n)) : ∀ Ws : List (Op (2 ^ n)), List.Forall₂ Gate.Is gs Ws →
    Acts (inOrder Ws) (inOrder (gs.map Gate.orbital)) := by
  induction gs using List.reverseRecOn with
  | nil =>
    intro Ws h
    obtain rfl := List.forall₂_nil_left_iff.1 h
    exact acts_one
  | append_singleton gs g ih =>
    intro Ws h
    obtain ⟨Vs, W, rfl, h1, h2⟩ := gates_snoc h
    rw [List.map_append, List.map_singleton, inOrder_concat, inOrder_concat]
    exact (gate_acts hn h2).mul (ih Vs h1)

/-! ## C166 -/

/-- C166. Every list of gates is a circuit. -/
theorem C166_defined (hn : 1 ≤ n) (gs : List (Gate n)) : ∃ Ws, List.Forall₂ Gate.Is gs Ws := by
  induction gs with
  | nil => exact ⟨[], .nil⟩
  | cons g gs ih =>
    obtain ⟨Ws, h⟩ := ih
    obtain ⟨Q, hQ, -⟩ := C94_evolution hn g.A g.B g.herm g.skew g.t 1
    exact ⟨_ :: Ws, .cons ⟨Q, hQ, rfl⟩ h⟩

/-- C166. A circuit of any length is unitary and acts on the correlation matrices by the product of the `2n x 2n` matrices of
its gates, for every state (any array). -/
theorem C166_correlations (hn : 1 ≤ n) (gs : List (Gate n)) (Ws : List (Op (2 ^ n))) (h : List.Forall₂ Gate.Is gs Ws) (ρ : Op (2 ^ n)) :
    let U := inOrder Ws
    let E := inOrder (gs.map Gate.orbital)
    U * Uᴴ = 1 ∧ E * Eᴴ = 1 ∧
    (∀ P, compute2Corr ρ n (jordanWignerAlphas n) (some 1) = .ok P →
      compute2Corr (U * ρ * Uᴴ) n (jordanWignerAlphas n) (some 1) = .ok (E * P * Eᴴ)) ∧
    (∀ Γ, compute2Corr ρ n (jordanWignerAlphas n) none = .ok Γ →
      compute2Corr (U * ρ * Uᴴ) n (jordanWignerAlphas n) none = .ok (E * Γ * Eᵀ)) := by
  intro U E
  revert U E h
  induction gs using List.reverseRecOn generalizing Ws with
  | nil =>
    intro h
    obtain rfl := List.forall₂_nil_left_iff.1 h
    simp [inOrder]
  | append_singleton gs g ih =>
    intro h
    obtain ⟨Vs, W, rfl, h1, Q, h2, rfl⟩ := gates_snoc h
    rw [List.map_append, List.map_singleton, inOrder_concat, inOrder_concat]
    obtain ⟨a1, a2, a3, a4⟩ := ih Vs h1
    obtain ⟨Q', h3, b⟩ := C94_evolution hn g.A g.B g.herm g.skew g.t (inOrder Vs * ρ * (inOrder Vs)ᴴ)
    obtain rfl := Except.ok.inj (h2.symm.trans h3)
    obtain ⟨b1, b2, b3, b4⟩ := b
    have e1 : ∀ (d : ℕ) (X Y M : Op d), X * Y * M * (X * Y)ᴴ = X * (Y * M * Yᴴ) * Xᴴ := fun d X Y M => by
      rw [conjTranspose_mul]; simp only [Matrix.mul_assoc]
    have e2 : ∀ (d : ℕ) (X Y M : Op d), X * Y * M * (X * Y)ᵀ = X * (Y * M * Yᵀ) * Xᵀ := fun d X Y M => by
      rw [transpose_mul]; simp only [Matrix.mul_assoc]
    have e3 : ∀ (d : ℕ) (X Y : Op d), X * Xᴴ = 1 → Y * Yᴴ = 1 → X * Y * (X * Y)ᴴ = 1 := fun d X Y hX hY => by
      rw [conjTranspose_mul, Matrix.mul_assoc, ← Matrix.mul_assoc Y, hY, one_mul, hX]
    refine ⟨e3 _ _ _ b1 a1, e3 _ _ _ b2 a2, fun P hP => ?_, fun Γ hΓ => ?_⟩
    · rw [e1, e1]; exact b3 _ (a3 P hP)
    · rw [e1, e2]; exact b4 _ (a4 Γ hΓ)

/-- C166. A circuit of any length keeps states free-fermion states: Wick's theorem still holds after it. -/
theorem C166_wick {f : Fin (n + n) → Op (2 ^ n)} (hf : jordanWignerAlphas n = List.ofFn f) (hn : 1 ≤ n) (gs : List (Gate n))
    (Ws : List (Op (2 ^ n))) (h : List.Forall₂ Gate.Is gs Ws) {ρ : Op (2 ^ n)} (hρ : Spec.IsDensity ρ) (hw : Spec.ObeysWick f ρ) :
    Spec.IsDensity (inOrder Ws * ρ * (inOrder Ws)ᴴ) ∧ Spec.ObeysWick f (inOrder Ws * ρ * (inOrder Ws)ᴴ) := by
  rw [jordanWignerAlphas_eq] at hf
  obtain rfl := List.ofFn_injective hf
  have hU := (C166_correlations hn gs Ws h ρ).1
  have hden : ∀ U : Op (2 ^ n), U * Uᴴ = 1 → Spec.IsDensity (U * ρ * Uᴴ) := fun U hU =>
    ⟨hρ.psd.mul_mul_conjTranspose_same U, by rw [trace_mul_comm, ← Matrix.mul_assoc, mul_eq_one_comm.1 hU, one_mul, hρ.trace_one]⟩
  refine ⟨hden _ hU, ?_⟩
  clear hU
  induction gs using List.reverseRecOn generalizing Ws with
  | nil =>
    obtain rfl := List.forall₂_nil_left_iff.1 h
    simpa [inOrder] using hw
  | append_singleton gs g ih =>
    obtain ⟨Vs, W, rfl, h1, h2⟩ := gates_snoc h
    have hU := (C166_correlations hn gs Vs h1 ρ).1
    have h3 := wick_gate (drop_herm (buildH_herm g.A g.B g.herm g.skew) 1e-10) g.t (ih Vs h1) (hden _ hU).trace_one (gate_quad hn h2)
    rw [inOrder_concat, conjTranspose_mul]
    simpa only [Matrix.mul_assoc] using h3

/-- C166. The `2n x 2n` matrix says everything about a circuit: two circuits have the same one exactly if they differ by a phase
factor. So two circuits with the same matrix take every state to the same state. -/
theorem C166_phase (hn : 1 ≤ n) (gs gs' : List (Gate n)) (Ws Ws' : List (Op (2 ^ n))) (h : List.Forall₂ Gate.Is gs Ws)
    (h' : List.Forall₂ Gate.Is gs' Ws') :
    (inOrder (gs.map Gate.orbital) = inOrder (gs'.map Gate.orbital) ↔ ∃ c : ℂ, ‖c‖ = 1 ∧ inOrder Ws = c • inOrder Ws') ∧
    (inOrder (gs.map Gate.orbital) = inOrder (gs'.map Gate.orbital) →
      ∀ ρ, inOrder Ws * ρ * (inOrder Ws)ᴴ = inOrder Ws' * ρ * (inOrder Ws')ᴴ) := by
  have hU := (C166_correlations hn gs Ws h 1).1
  have hU' := (C166_correlations hn gs' Ws' h' 1).1
  have ha := circuit_acts hn gs Ws h
  have ha' := circuit_acts hn gs' Ws' h'
  have key : inOrder (gs.map Gate.orbital) = inOrder (gs'.map Gate.orbital) → ∃ c : ℂ, ‖c‖ = 1 ∧ inOrder Ws = c • inOrder Ws' := by
    intro e
    rw [e] at ha
    obtain ⟨c, hc⟩ := acts_unique ha ha' hU'
    refine ⟨c, ?_, hc⟩
    rw [hc, conjTranspose_smul, Matrix.smul_mul, Matrix.mul_smul, hU', smul_smul] at hU
    have h1 := congrFun (congrFun hU 0) 0
    rw [Matrix.smul_apply, one_apply_eq, smul_eq_mul, mul_one, Complex.star_def, Complex.mul_conj'] at h1
    have h2 : ‖c‖ ^ 2 = 1 := by exact_mod_cast h1
    nlinarith [norm_nonneg c]
  refine ⟨⟨key, fun ⟨c, hc, he⟩ => ?_⟩, fun e ρ => ?_⟩
  · have hc0 : c ≠ 0 := fun h0 => by rw [h0, norm_zero] at hc; exact zero_ne_one hc
    ext k l
    have h1 := ha k
    have h2 := ha' k
    rw [he, Matrix.mul_smul, h2, Matrix.smul_mul] at h1
    have h3 := smul_right_injective _ hc0 h1
    have h4 := congrArg (fun X => (inOrder Ws')ᴴ * X) h3
    simp only [← Matrix.mul_assoc, mul_eq_one_comm.1 hU', one_mul] at h4
    exact (congrFun (comb_injective h4) l).symm
  · obtain ⟨c, hc, he⟩ := key e
    rw [he, conjTranspose_smul, Matrix.smul_mul, Matrix.smul_mul, Matrix.mul_smul, smul_smul, Complex.star_def, Complex.mul_conj', hc]
    simp

/-- C166. The overlap of the state after a circuit with another state, from `2n x 2n` matrices only. -/
theorem C166_overlap {f : Fin (n + n) → Op (2 ^ n)} (hf : jordanWignerAlphas n = List.ofFn f) (hn : 1 ≤ n) (gs : List (Gate n))
    (Ws : List (Op (2 ^ n))) (h : List.Forall₂ Gate.Is gs Ws) {ρ σ : Op (2 ^ n)} (hρ : Spec.IsDensity ρ) (hw : Spec.ObeysWick f ρ)
    (hσ : Spec.IsDensity σ) (hw' : Spec.ObeysWick f σ) (P Q : Op (n + n))
    (hP : compute2Corr ρ n (jordanWignerAlphas n) (some 1) = .ok P)
    (hQ : compute2Corr σ n (jordanWignerAlphas n) (some 1) = .ok Q) :
    let E := inOrder (gs.map Gate.orbital)
    (inOrder Ws * ρ * (inOrder Ws)ᴴ * σ).trace =
      ((Real.sqrt (E * P * Eᴴ * Q + (1 - E * P * Eᴴ) * (1 - Q)).det.re : ℝ) : ℂ) := by
  intro E
  obtain ⟨h1, h2⟩ := C166_wick hf hn gs Ws h hρ hw
  exact (C165_overlap hf h1 h2 hσ hw' _ Q ((C166_correlations hn gs Ws h ρ).2.2.1 P hP) hQ).2.2

/-- The hypotheses are met by a circuit of two gates on two sites, one with hopping and pairing and one on the first site only. -/
example : ∃ gs : List (Gate 2), gs.length = 2 ∧ (∃ Ws, List.Forall₂ Gate.Is gs Ws) := by
  have hA : (!![1, Complex.I; -Complex.I, 2] : Op 2).IsHermitian := by
    ext i j; fin_cases i <;> fin_cases j <;> simp
  have hB : (!![0, 1; -1, 0] : Op 2)ᵀ = -!![0, 1; -1, 0] := by
    ext i j; fin_cases i <;> fin_cases j <;> simp
  exact ⟨[⟨_, _, 1, hA, hB⟩, ⟨!![1, 0; 0, 0], 0, 1, by ext i j; fin_cases i <;> fin_cases j <;> simp, by simp⟩], rfl,
    C166_defined (by norm_num) _⟩

end FF.Props
