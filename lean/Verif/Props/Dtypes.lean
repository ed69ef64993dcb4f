import Verif.Proofs.Dtypes
import Verif.Props.Quadratic

/-!
# Property C120: the types of the arrays

`rotate_operators` and `build_op` accumulate in place in an array of the type of the first operator, and `kitaev_chain`
writes into arrays of real type. What is returned therefore depends on the types of the arguments, not only on their values.
-/

namespace FF.Props

open Matrix ComplexConjugate

theorem promote_lt (κ a b : Kind) : κ.rank < (a.promote b).rank ↔ κ.rank < a.rank ∨ κ.rank < b.rank := by
  rw [promote_rank, lt_max_iff]

theorem rotateT_false {m k d N : ℕ} (kC : Kind) (C : Matrix (Fin m) (Fin k) ℂ) (f : Fin N → TArr d) (hm : N ≤ m)
    (hk : N ≤ k) : rotateOperatorsT kC C (List.ofFn f) false = (performRotationT kC C (List.ofFn f)).map some := by
  rw [rotateOperatorsT, List.length_ofFn, if_neg (by omega), if_neg (by decide)]
  cases performRotationT kC C (List.ofFn f) <;> rfl

theorem rotateT_true {m k d N : ℕ} (kC : Kind) (C : Matrix (Fin m) (Fin k) ℂ) (f : Fin N → TArr d) (hm : N ≤ m)
    (hk : N ≤ k) : rotateOperatorsT kC C (List.ofFn f) true = (performRotationT kC Cᴴ (List.ofFn f)).map some := by
  rw [rotateOperatorsT, List.length_ofFn, if_neg (by omega), if_pos rfl]
  cases performRotationT kC Cᴴ (List.ofFn f) <;> rfl

/-- C120. `rotate_operators(C, alphas)` raises `TypeError` if some coefficient that is used is of higher type than the first
operator, or belongs to an operator of higher type than the first one; otherwise it returns the operators of C29, as arrays
of the type of the first operator. -/
theorem C120_rotate {m k d N : ℕ} (kC : Kind) (C : Matrix (Fin m) (Fin k) ℂ) (f : Fin N → TArr d) (hm : N ≤ m)
    (hk : N ≤ k) (hN : 0 < N) :
    ((∃ j i : Fin N, 1e-9 ≤ ‖C (Fin.castLE hm j) (Fin.castLE hk i)‖ ∧
      ((f ⟨0, hN⟩).kind.rank < kC.rank ∨ (f ⟨0, hN⟩).kind.rank < (f i).kind.rank)) →
        rotateOperatorsT kC C (List.ofFn f) false = .error .typeError) ∧
    ((∀ j i : Fin N, 1e-9 ≤ ‖C (Fin.castLE hm j) (Fin.castLE hk i)‖ →
      kC.rank ≤ (f ⟨0, hN⟩).kind.rank ∧ (f i).kind.rank ≤ (f ⟨0, hN⟩).kind.rank) →
        ∃ bs : Fin N → Op d,
          rotateOperators (.matrixFirst C (List.ofFn fun i => (f i).val)) false = .ok (some (List.ofFn bs)) ∧
          rotateOperatorsT kC C (List.ofFn f) false = .ok (some (List.ofFn fun j => ⟨(f ⟨0, hN⟩).kind, bs j⟩))) := by
  rw [rotateT_false kC C f hm hk, performRotationT_eq kC C f hm hk hN]
  constructor
  · rintro ⟨j, i, h1, h2⟩
    rw [if_pos ⟨j, i, h1, (promote_lt _ _ _).2 h2⟩]
    rfl
  · intro h
    refine ⟨_, C29_right C _ hm hk, ?_⟩
    rw [if_neg]
    · rfl
    · rintro ⟨j, i, h1, h2⟩
      obtain ⟨h3, h4⟩ := h j i h1
      rcases (promote_lt _ _ _).1 h2 with h | h <;> omega

/-- C120. The same with `Left=True`, where the coefficients are those of the conjugate transpose. -/
theorem C120_rotate_left {m k d N : ℕ} (kC : Kind) (C : Matrix (Fin m) (Fin k) ℂ) (f : Fin N → TArr d) (hm : N ≤ m)
    (hk : N ≤ k) (hN : 0 < N) :
    ((∃ j i : Fin N, 1e-9 ≤ ‖C (Fin.castLE hm i) (Fin.castLE hk j)‖ ∧
      ((f ⟨0, hN⟩).kind.rank < kC.rank ∨ (f ⟨0, hN⟩).kind.rank < (f i).kind.rank)) →
        rotateOperatorsT kC C (List.ofFn f) true = .error .typeError) ∧
    ((∀ j i : Fin N, 1e-9 ≤ ‖C (Fin.castLE hm i) (Fin.castLE hk j)‖ →
      kC.rank ≤ (f ⟨0, hN⟩).kind.rank ∧ (f i).kind.rank ≤ (f ⟨0, hN⟩).kind.rank) →
        ∃ bs : Fin N → Op d,
          rotateOperators (.matrixFirst C (List.ofFn fun i => (f i).val)) true = .ok (some (List.ofFn bs)) ∧
          rotateOperatorsT kC C (List.ofFn f) true = .ok (some (List.ofFn fun j => ⟨(f ⟨0, hN⟩).kind, bs j⟩))) := by
  have hn : ∀ i j, ‖Cᴴ i j‖ = ‖C j i‖ := fun i j => by rw [conjTranspose_apply, norm_star]
  rw [rotateT_true kC C f hm hk, performRotationT_eq kC Cᴴ f hk hm hN]
  constructor
  · rintro ⟨j, i, h1, h2⟩
    rw [if_pos ⟨j, i, by rwa [hn], (promote_lt _ _ _).2 h2⟩]
    rfl
  · intro h
    refine ⟨_, C29_left C _ hm hk, ?_⟩
    rw [if_neg]
    · rw [← dropSmall_conjTranspose]
      rfl
    · rintro ⟨j, i, h1, h2⟩
      rw [hn] at h1
      obtain ⟨h3, h4⟩ := h j i h1
      rcases (promote_lt _ _ _).1 h2 with h | h <;> omega

/-- C120. `build_op(n_sites, R, alphas, direct)` raises `TypeError` if some coefficient that is used is of higher type than
the first operator, or multiplies an operator of higher type than the first one; otherwise it returns the same array as in
C33 and C34, of the type of the first operator. -/
theorem C120_build_op {d n : ℕ} (hn : 1 ≤ n) (kR : Kind) (R : Op (n + n)) (f : Fin (n + n) → TArr d) (direct : Bool) :
    ((∃ i j, 1e-10 ≤ ‖R i j‖ ∧ ((f ⟨0, by omega⟩).kind.rank < kR.rank ∨
      (f ⟨0, by omega⟩).kind.rank < (f i).kind.rank ∨ (f ⟨0, by omega⟩).kind.rank < (f j).kind.rank)) →
        buildOpT n kR R (List.ofFn f) direct = .error .typeError) ∧
    ((∀ i j, 1e-10 ≤ ‖R i j‖ → kR.rank ≤ (f ⟨0, by omega⟩).kind.rank ∧
      (f i).kind.rank ≤ (f ⟨0, by omega⟩).kind.rank ∧ (f j).kind.rank ≤ (f ⟨0, by omega⟩).kind.rank) →
        ∃ Q : Op d, buildOp n R (List.ofFn fun i => (f i).val) direct = .ok Q ∧
          buildOpT n kR R (List.ofFn f) direct = .ok ⟨(f ⟨0, by omega⟩).kind, Q⟩ ∧
          Q = ∑ i, ∑ j, Spec.dropSmall 1e-10 R i j • ((if direct then (f i).val else (f i).valᴴ) * (f j).val)) := by
  rw [buildOpT_eq hn]
  constructor
  · rintro ⟨i, j, h1, h2⟩
    rw [if_pos ⟨i, j, h1, (promote_lt _ _ _).2 (h2.imp id (promote_lt _ _ _).2)⟩]
  · intro h
    refine ⟨_, ?_, ?_, rfl⟩
    · cases direct
      · exact buildOp_square _ _ hn
      · exact buildOp_square_direct _ _ hn
    · rw [if_neg]
      rintro ⟨i, j, h1, h2⟩
      obtain ⟨h3, h4, h5⟩ := h i j h1
      rcases (promote_lt _ _ _).1 h2 with h | h
      · omega
      · rcases (promote_lt _ _ _).1 h with h | h <;> omega

/-- Non-vacuity of C120: an identity matrix of coefficients of complex type, and operators of one site of real or complex
type. -/
example : (∃ f : Fin (1 + 1) → TArr 2, (∀ i, (f i).kind = .float) ∧ ∀ direct,
      buildOpT 1 .complex (1 : Op (1 + 1)) (List.ofFn f) direct = .error .typeError) ∧
    ∃ f : Fin (1 + 1) → TArr 2, (∀ i, (f i).kind = .complex) ∧ ∀ direct, ∃ Q,
      buildOpT 1 .complex (1 : Op (1 + 1)) (List.ofFn f) direct = .ok ⟨.complex, Q⟩ := by
  refine ⟨⟨fun _ => ⟨.float, !![0, 0; 1, 0]⟩, fun _ => rfl, fun direct => ?_⟩,
    ⟨fun _ => ⟨.complex, !![0, 0; 1, 0]⟩, fun _ => rfl, fun direct => ?_⟩⟩
  · exact (C120_build_op le_rfl _ _ _ _).1 ⟨0, 0, by rw [one_apply_eq, norm_one]; norm_num, .inl (by decide)⟩
  · obtain ⟨Q, -, h, -⟩ := (C120_build_op le_rfl .complex 1 (fun _ => (⟨.complex, !![0, 0; 1, 0]⟩ : TArr 2)) direct).2
      fun _ _ _ => ⟨le_rfl, le_rfl, le_rfl⟩
    exact ⟨Q, h⟩

/-- C120. If the first operator is a complex array, as for the Jordan-Wigner operators, the types of the other arguments
do not matter: no call fails because of them. -/
theorem C120_complex {m k d N n : ℕ} (kC kR : Kind) (C : Matrix (Fin m) (Fin k) ℂ) (f : Fin N → TArr d) (hm : N ≤ m)
    (hk : N ≤ k) (hN : 0 < N) (h0 : (f ⟨0, hN⟩).kind = .complex) (hn : 1 ≤ n) (R : Op (n + n))
    (g : Fin (n + n) → TArr d) (g0 : (g ⟨0, by omega⟩).kind = .complex) (direct left : Bool) :
    (∃ bs : Fin N → Op d,
      rotateOperators (.matrixFirst C (List.ofFn fun i => (f i).val)) left = .ok (some (List.ofFn bs)) ∧
      rotateOperatorsT kC C (List.ofFn f) left = .ok (some (List.ofFn fun j => ⟨.complex, bs j⟩))) ∧
    ∃ Q : Op d, buildOp n R (List.ofFn fun i => (g i).val) direct = .ok Q ∧
      buildOpT n kR R (List.ofFn g) direct = .ok ⟨.complex, Q⟩ := by
  have hr : ∀ k : Kind, k.rank ≤ Kind.complex.rank := by intro k; cases k <;> decide
  constructor
  · cases left
    · rw [← h0]
      exact (C120_rotate kC C f hm hk hN).2 fun j i _ => by rw [h0]; exact ⟨hr _, hr _⟩
    · rw [← h0]
      exact (C120_rotate_left kC C f hm hk hN).2 fun j i _ => by rw [h0]; exact ⟨hr _, hr _⟩
  · obtain ⟨Q, h1, h2, -⟩ := (C120_build_op hn kR R g direct).2 fun i j _ => by rw [g0]; exact ⟨hr _, hr _, hr _⟩
    exact ⟨Q, h1, g0 ▸ h2⟩

/-- C120. `kitaev_chain(n_sites, mu, t, delta)` raises `TypeError` exactly if there are at least two sites and `delta` is a
complex number, or `t` is one and `mu` is not. In all other cases it returns `build_H` of the array with `-mu` on the
diagonal and `-t` beside it, and the antisymmetric array of `delta`. -/
theorem C120_kitaev (n : ℕ) (mu t delta : TNum) :
    (kitaevChainT n mu t delta = .error .typeError ↔
      2 ≤ n ∧ (delta.kind = .complex ∨ t.kind = .complex ∧ mu.kind ≠ .complex)) ∧
    (¬ (2 ≤ n ∧ (delta.kind = .complex ∨ t.kind = .complex ∧ mu.kind ≠ .complex)) →
      kitaevChainT n mu t delta = .ok (buildH n
        (Matrix.of fun x y => if (x : ℕ) + 1 = y ∨ (y : ℕ) + 1 = x then -t.val else if x = y then -mu.val else 0)
        (some (Matrix.of fun x y => if (x : ℕ) + 1 = y then delta.val else if (y : ℕ) + 1 = x then -delta.val else 0)))) := by
  rw [kitaevChainT_eq]
  constructor
  · split_ifs with h <;> simp [h]
  · intro h
    rw [if_neg h]
    congr 2
    · ext x y
      simp only [tri, of_apply]
      split_ifs <;> first | rfl | omega
    · congr 1
      ext x y
      simp only [tri, of_apply, ite_self]

/-- C120. For real parameters of real type the result is the array of C36. -/
theorem C120_kitaev_real (n : ℕ) {kmu kt kd : Kind} (ht : kt ≠ .complex) (hd : kd ≠ .complex) (mu t delta : ℝ) :
    kitaevChainT n ⟨kmu, mu⟩ ⟨kt, t⟩ ⟨kd, delta⟩ = .ok (kitaevChain n mu t delta) := by
  rw [kitaevChainT_eq, if_neg (by rintro ⟨-, h | h⟩; exacts [hd h, ht h.1]), kitaev_eq]
  simp

/-- C120. Complex parameters that are accepted do not give the Hamiltonian of a chain with complex hopping: both entries
beside the diagonal are `-t`, so the array is Hermitian exactly if `mu` and, for at least two sites, `t` are real. -/
theorem C120_kitaev_hermitian (n : ℕ) (mu t delta : TNum) {H : Op (n + n)} (h : kitaevChainT n mu t delta = .ok H) :
    H.IsHermitian ↔ (1 ≤ n → mu.val.im = 0) ∧ (2 ≤ n → t.val.im = 0) := by
  rw [kitaevChainT_eq] at h
  split_ifs at h
  obtain rfl := Except.ok.inj h
  rw [← tri_hermitian]
  constructor
  · intro hH
    ext x y
    have := congrFun (congrFun hH (Fin.natAdd n x)) (Fin.natAdd n y)
    rw [conjTranspose_apply, buildH, blk_22, blk_22] at this
    rw [conjTranspose_apply]
    exact this
  · intro hA
    refine buildH_herm _ _ hA ?_
    ext x y
    simp only [transpose_apply, Matrix.neg_apply, tri, of_apply, Fin.ext_iff]
    split_ifs <;> first | omega | simp

/-- C120. The type matters although the values are the same: the operators `[a†, a]` of one site given as real arrays and
the coefficients of `build_Omega`. -/
theorem C120_violation : ∃ f g : Fin 2 → TArr 2, (∀ i, (f i).val = (g i).val) ∧ (f 0).val = !![0, 0; 1, 0] ∧
    rotateOperatorsT .complex (buildOmega 1) (List.ofFn f) false = .error .typeError ∧
    ∃ b, rotateOperatorsT .complex (buildOmega 1) (List.ofFn g) false = .ok (some b) := by
  refine ⟨fun i => ⟨.float, if i = 0 then !![0, 0; 1, 0] else !![0, 1; 0, 0]⟩,
    fun i => ⟨.complex, if i = 0 then !![0, 0; 1, 0] else !![0, 1; 0, 0]⟩, fun _ => rfl, rfl,
    (C120_rotate _ _ _ le_rfl le_rfl (by decide)).1 ⟨0, 0, ?_, .inl (by decide)⟩, ?_⟩
  · have : buildOmega 1 0 0 = nu := by
      have := blk_11 (nu • (1 : Op 1)) (nu • 1) ((Complex.I * nu) • 1) ((-Complex.I * nu) • 1) 0 0
      rw [buildOmega]
      refine this.trans ?_
      simp
    change _ ≤ ‖buildOmega 1 0 0‖
    rw [this, nu, Complex.norm_real, Real.norm_of_nonneg (by positivity), one_div]
    have h2 : Real.sqrt 2 ≤ 2 := by
      rw [Real.sqrt_le_left (by norm_num)]
      norm_num
    have := inv_anti₀ (Real.sqrt_pos.2 (by norm_num : (0:ℝ) < 2)) h2
    refine le_trans (by norm_num) this
  · obtain ⟨bs, -, h⟩ := (C120_rotate .complex (buildOmega 1) (fun i : Fin 2 => (⟨.complex,
      if i = 0 then !![0, 0; 1, 0] else !![0, 1; 0, 0]⟩ : TArr 2)) le_rfl le_rfl (by decide)).2
      (fun _ _ _ => ⟨le_rfl, le_rfl⟩)
    exact ⟨_, h⟩

/-- Non-vacuity of C120: complex hopping with a complex `mu` is accepted, complex pairing is not. -/
example : (∃ H, kitaevChainT 3 ⟨.complex, 1⟩ ⟨.complex, Complex.I⟩ ⟨.float, 1⟩ = .ok H ∧ ¬ H.IsHermitian) ∧
    kitaevChainT 3 ⟨.complex, 1⟩ ⟨.complex, Complex.I⟩ ⟨.complex, 1⟩ = .error .typeError := by
  constructor
  · refine ⟨_, (C120_kitaev _ _ _ _).2 (by rintro ⟨-, h | ⟨-, h⟩⟩ <;> simp at h), ?_⟩
    rw [C120_kitaev_hermitian _ _ _ _ ((C120_kitaev 3 ⟨.complex, 1⟩ ⟨.complex, Complex.I⟩ ⟨.float, 1⟩).2
      (by rintro ⟨-, h | ⟨-, h⟩⟩ <;> simp at h))]
    rintro ⟨-, h⟩
    simpa using h (by norm_num)
  · exact (C120_kitaev _ _ _ _).1.2 ⟨by norm_num, .inl rfl⟩

end FF.Props
