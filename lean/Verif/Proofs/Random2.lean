import Verif.Proofs.Random
import Verif.Proofs.LogExists
import Verif.Model.Random

/-! # Proofs: filled states, vacuum projection and paths -/

namespace FF

open Matrix
open scoped ComplexConjugate ComplexOrder

/-! ## filling sites -/

/-- The fold of `fillSites` without exceptions. -/
def fillP {d : ℕ} (g : ℕ → Op d) (N : ℕ) : ℕ → (Fin d → ℂ) → (Fin d → ℂ)
  | 0, psi => psi
  | n + 1, psi => fillP g N n (if n < N then g n *ᵥ psi else psi)

theorem fillSites_eq {d : ℕ} (ops : List (Op d)) (g : ℕ → Op d) (N : ℕ) :
    ∀ (n : ℕ) (psi : Fin d → ℂ), (∀ j < n, listGet ops j = .ok (g j)) →
      fillSites n N ops psi = .ok (fillP g N n psi) := by
  intro n
  induction n with
  | zero => intro psi _; rfl
  | succ n ih =>
    intro psi h
    have h1 := ih (if n < N then g n *ᵥ psi else psi) fun j hj => h j (by omega)
    rw [fillP, ← h1, fillSites, List.range_succ, List.reverse_append, List.reverse_singleton, List.singleton_append,
      List.foldlM_cons]
    by_cases hN : n < N
    · simp only [occupation, if_pos hN, if_true, h n (by omega)]
      rfl
    · simp only [occupation, if_neg hN, zero_ne_one, if_false]
      rfl

/-- The basis state with the sites from `m` to `N - 1` filled. -/
def filled (n N m : ℕ) : Fin n → Fin 2 := fun i => if m ≤ (i : ℕ) ∧ (i : ℕ) < N then 1 else 0

theorem fillP_fock (n N : ℕ) (g : ℕ → Op (2 ^ n)) (hg : ∀ j : Fin n, g j = (jwLower n j)ᴴ) :
    ∀ m, m ≤ n → fillP g N m (Spec.fock (filled n N m)) = Spec.fock (filled n N 0) := by
  intro m
  induction m with
  | zero => intro _; rfl
  | succ m ih =>
    intro hm
    rw [fillP, ← ih (by omega)]
    congr 1
    split_ifs with hN
    · rw [hg ⟨m, by omega⟩, jwRaise_fock, if_pos (by simp [filled])]
      have hz : (∑ k : Fin n, if k < ⟨m, by omega⟩ then (filled n N (m + 1) k : ℕ) else 0) = 0 := by
        apply Finset.sum_eq_zero
        intro k _
        split_ifs with hk
        · have hk' : (k : ℕ) < m := hk
          have : ¬ (m + 1 ≤ (k : ℕ) ∧ (k : ℕ) < N) := by omega
          simp only [filled, if_neg this]; rfl
        · rfl
      rw [hz, pow_zero, one_smul]
      congr 1
      funext i
      by_cases hi : i = ⟨m, by omega⟩
      · subst hi; simp [filled, hN]
      · have hne : (i : ℕ) ≠ m := fun h => hi (Fin.ext h)
        rw [Function.update_of_ne hi]
        simp only [filled]
        congr 1
        simp only [eq_iff_iff]
        omega
    · congr 1
      funext i
      simp only [filled]
      congr 1
      simp only [eq_iff_iff]
      omega

theorem filled_top (n N : ℕ) : filled n N n = fun _ => 0 := by
  funext i
  have := i.2
  simp only [filled]
  rw [if_neg (by omega)]

theorem initialStateWN_eq (n N : ℕ) : initialStateWN n N = .ok (Spec.fock (filled n N 0)) := by
  rw [initialStateWN, fillSites_eq _ (fun j => (jwLower n j)ᴴ) N n _ ?_, fock_zero, ← filled_top n N,
    fillP_fock n N _ (fun _ => rfl) n le_rfl]
  intro j hj
  rw [jordanWignerAlphas_eq, listGet_ofFn _ _ (by omega)]
  exact congrArg Except.ok (al_left n ⟨j, hj⟩)

theorem parity_fock {n : ℕ} (b : Fin n → Fin 2) :
    Spec.parity n *ᵥ Spec.fock b = ((-1 : ℂ) ^ (∑ i, (b i : ℕ))) • Spec.fock b := by
  funext x
  rw [Spec.parity, mulVec_diagonal]
  simp only [Pi.smul_apply, smul_eq_mul]
  by_cases hx : x = bIdx b
  · subst hx
    congr 2
    apply Finset.sum_congr rfl
    intro i _
    rw [(eq_bIdx (bIdx b) b).1 rfl]
  · rw [fock_eq]
    simp [Pi.single_apply, hx]

theorem filled_sum {n N : ℕ} (h : N ≤ n) : ∑ i, (filled n N 0 i : ℕ) = N := by
  have h1 : ∀ i : Fin n, ((filled n N 0 i : Fin 2) : ℕ) = if (i : ℕ) < N then 1 else 0 := by
    intro i
    simp only [filled, Nat.zero_le, true_and]
    split_ifs <;> rfl
  simp only [h1]
  rw [Fin.sum_univ_eq_sum_range (fun i => if i < N then 1 else 0) n, ← Finset.sum_filter, Finset.sum_const, smul_eq_mul, mul_one]
  have : (Finset.range n).filter (fun i => i < N) = Finset.range N := by
    ext i; simp only [Finset.mem_filter, Finset.mem_range]; omega
  rw [this, Finset.card_range]

/-! ## distilling the vacuum -/

section car
variable {d n : ℕ} {g : ℕ → Op d}

/-- The first `n` operators are creation operators. -/
structure IsCAR (g : ℕ → Op d) (n : ℕ) : Prop where
  anti : ∀ i < n, ∀ j < n, g i * g j + g j * g i = 0
  mixed : ∀ i < n, ∀ j < n, (g i)ᴴ * g j + g j * (g i)ᴴ = if i = j then 1 else 0

theorem IsCAR.antiH (h : IsCAR g n) {i j : ℕ} (hi : i < n) (hj : j < n) : (g i)ᴴ * (g j)ᴴ + (g j)ᴴ * (g i)ᴴ = 0 := by
  have := congrArg conjTranspose (h.anti j hj i hi)
  simpa [conjTranspose_add, conjTranspose_mul] using this

theorem IsCAR.sqH (h : IsCAR g n) {i : ℕ} (hi : i < n) : (g i)ᴴ * (g i)ᴴ = 0 := by
  have := h.antiH hi hi
  rw [← two_smul ℂ] at this
  exact (smul_eq_zero.1 this).resolve_left two_ne_zero

/-- `g_iᴴ` commutes with the number operator of another site. -/
theorem IsCAR.commH (h : IsCAR g n) {i k : ℕ} (hi : i < n) (hk : k < n) (hne : i ≠ k) :
    (g i)ᴴ * (g k * (g k)ᴴ) = g k * (g k)ᴴ * (g i)ᴴ := by
  have h1 : (g i)ᴴ * g k = -(g k * (g i)ᴴ) := by
    have := h.mixed i hi k hk; rw [if_neg hne] at this; exact eq_neg_of_add_eq_zero_left this
  have h2 : (g i)ᴴ * (g k)ᴴ = -((g k)ᴴ * (g i)ᴴ) := eq_neg_of_add_eq_zero_left (h.antiH hi hk)
  rw [← mul_assoc, h1, neg_mul, mul_assoc, h2, mul_neg, neg_neg, mul_assoc]

theorem IsCAR.comm (h : IsCAR g n) {i k : ℕ} (hi : i < n) (hk : k < n) (hne : i ≠ k) :
    g i * (g k * (g k)ᴴ) = g k * (g k)ᴴ * g i := by
  have := congrArg conjTranspose (h.commH hi hk hne)
  simp only [conjTranspose_mul, conjTranspose_conjTranspose] at this
  rw [mul_assoc] at this ⊢
  exact this.symm

/-- The product of the projectors on empty sites. -/
def vacP (g : ℕ → Op d) : ℕ → Op d
  | 0 => 1
  | m + 1 => vacP g m * (1 - g m * (g m)ᴴ)

theorem vacuumProjector_eq (ops : List (Op d)) (h : ∀ j < n, listGet ops j = .ok (g j)) :
    vacuumProjector n ops = .ok (vacP g n) := by
  induction n with
  | zero => rfl
  | succ n ih =>
    have h1 := ih fun j hj => h j (by omega)
    rw [vacuumProjector] at h1 ⊢
    rw [List.range_succ, List.foldlM_append, h1]
    simp only [List.foldlM_cons, List.foldlM_nil, h n (by omega)]
    rfl

theorem vacP_kill (h : IsCAR g n) {m : ℕ} (hm : m ≤ n) {i : ℕ} (hi : i < m) : (g i)ᴴ * vacP g m = 0 := by
  induction m with
  | zero => omega
  | succ m ih =>
    rw [vacP]
    rcases Nat.lt_succ_iff_lt_or_eq.1 hi with h1 | rfl
    · rw [← mul_assoc, ih (by omega) h1, zero_mul]
    · have key : ∀ k, k ≤ i → (g i)ᴴ * vacP g k = vacP g k * (g i)ᴴ := by
        intro k hk
        induction k with
        | zero => simp [vacP]
        | succ k ihk =>
          rw [vacP, ← mul_assoc, ihk (by omega), mul_assoc, mul_assoc, mul_sub, sub_mul, mul_one, one_mul,
            h.commH (by omega) (by omega) (by omega)]
      rw [← mul_assoc, key i le_rfl, mul_assoc]
      have h2 : (g i)ᴴ * (1 - g i * (g i)ᴴ) = 0 := by
        have h3 := h.mixed i (by omega) i (by omega)
        rw [if_pos rfl] at h3
        have h4 : (g i)ᴴ * g i = 1 - g i * (g i)ᴴ := eq_sub_of_add_eq h3
        rw [← h4, ← mul_assoc, h.sqH (by omega), zero_mul]
      rw [h2, mul_zero]

theorem factor_comm (h : IsCAR g n) {i k : ℕ} (hi : i < n) (hk : k < n) :
    (1 - g i * (g i)ᴴ) * (1 - g k * (g k)ᴴ) = (1 - g k * (g k)ᴴ) * (1 - g i * (g i)ᴴ) := by
  by_cases hne : i = k
  · subst hne; rfl
  · have h1 : g i * (g i)ᴴ * (g k * (g k)ᴴ) = g k * (g k)ᴴ * (g i * (g i)ᴴ) := by
      rw [mul_assoc, h.commH hi hk hne, ← mul_assoc, h.comm hi hk hne, mul_assoc]
    simp only [mul_sub, sub_mul, mul_one, one_mul, h1]
    abel

theorem vacP_herm (h : IsCAR g n) {m : ℕ} (hm : m ≤ n) : (vacP g m)ᴴ = vacP g m := by
  induction m with
  | zero => simp [vacP]
  | succ m ih =>
    have key : ∀ k, k ≤ m → (1 - g m * (g m)ᴴ) * vacP g k = vacP g k * (1 - g m * (g m)ᴴ) := by
      intro k hk
      induction k with
      | zero => simp [vacP]
      | succ k ihk => rw [vacP, ← mul_assoc, ihk (by omega), mul_assoc, mul_assoc, factor_comm h (by omega) (by omega)]
    rw [vacP, conjTranspose_mul, ih (by omega), conjTranspose_sub, conjTranspose_one, conjTranspose_mul,
      conjTranspose_conjTranspose, key m le_rfl]

theorem vacP_fix {v : Fin d → ℂ} (hv : ∀ i < n, (g i)ᴴ *ᵥ v = 0) : vacP g n *ᵥ v = v := by
  induction n with
  | zero => simp [vacP]
  | succ n ih =>
    rw [vacP, ← mulVec_mulVec, sub_mulVec, ← mulVec_mulVec, hv n (by omega), mulVec_zero, one_mulVec, sub_zero,
      ih fun i hi => hv i (by omega)]

/-- The filled state has the occupations `1..1 0..0` and norm one. -/
theorem fillP_ok (h : IsCAR g n) (N : ℕ) :
    ∀ m, m ≤ n → ∀ psi : Fin d → ℂ, Spec.IsUnitVec psi → (∀ j < m, (g j)ᴴ *ᵥ psi = 0) →
      (∀ j, m ≤ j → j < n → (g j * (g j)ᴴ) *ᵥ psi = (if j < N then (1 : ℂ) else 0) • psi) →
      Spec.IsUnitVec (fillP g N m psi) ∧
        ∀ j < n, (g j * (g j)ᴴ) *ᵥ fillP g N m psi = (if j < N then (1 : ℂ) else 0) • fillP g N m psi := by
  intro m
  induction m with
  | zero => intro _ psi h1 _ h3; exact ⟨h1, fun j hj => h3 j (by omega) hj⟩
  | succ m ih =>
    intro hm psi h1 h2 h3
    rw [fillP]
    have hn1 : (g m)ᴴ * g m = 1 - g m * (g m)ᴴ := by
      have := h.mixed m (by omega) m (by omega); rw [if_pos rfl] at this; exact eq_sub_of_add_eq this
    have hn2 : ((g m)ᴴ * g m) *ᵥ psi = psi := by
      rw [hn1, sub_mulVec, ← mulVec_mulVec, h2 m (by omega), mulVec_zero, one_mulVec, sub_zero]
    by_cases hN : m < N
    · rw [if_pos hN]
      apply ih (by omega)
      · rw [unit_iff_inner] at h1 ⊢
        rw [inner_mul_left, mulVec_mulVec, hn2, h1]
      · intro j hj
        have h4 : (g j)ᴴ * g m = -(g m * (g j)ᴴ) := by
          have := h.mixed j (by omega) m (by omega); rw [if_neg (by omega)] at this
          exact eq_neg_of_add_eq_zero_left this
        rw [mulVec_mulVec, h4, neg_mulVec, ← mulVec_mulVec, h2 j (by omega), mulVec_zero, neg_zero]
      · intro j hj hjn
        rcases Nat.eq_or_lt_of_le hj with rfl | hlt
        · rw [if_pos hN, one_smul, mulVec_mulVec, mul_assoc, ← mulVec_mulVec, hn2]
        · rw [mulVec_mulVec, ← h.comm (by omega) hjn (by omega), ← mulVec_mulVec, h3 j (by omega) hjn, mulVec_smul]
    · rw [if_neg hN]
      apply ih (by omega) psi h1 (fun j hj => h2 j (by omega))
      intro j hj hjn
      rcases Nat.eq_or_lt_of_le hj with rfl | hlt
      · rw [if_neg hN, zero_smul, ← mulVec_mulVec, h2 m (by omega), mulVec_zero]
      · exact h3 j (by omega) hjn

end car

theorem fillP_prod {d : ℕ} (g : ℕ → Op d) (N : ℕ) :
    ∀ m (psi : Fin d → ℂ), fillP g N m psi = ((List.range (min m N)).map g).prod *ᵥ psi := by
  intro m
  induction m with
  | zero => intro psi; simp [fillP]
  | succ m ih =>
    intro psi
    rw [fillP, ih]
    by_cases hN : m < N
    · rw [if_pos hN, min_eq_left hN.le, min_eq_left hN, List.range_succ, List.map_append, List.prod_append,
        mulVec_mulVec]
      simp
    · rw [if_neg hN, min_eq_right (by omega), min_eq_right (by omega)]

/-! ## orthogonal completion and paths -/

theorem isclose_zero_iff (x : ℝ) (hx : 0 ≤ x) : isclose ((x : ℝ) : ℂ) 0 ↔ x ≤ 1e-8 := by
  rw [isclose, sub_zero, norm_zero, Complex.norm_real, Real.norm_of_nonneg hx]
  norm_num

theorem vnorm_nonneg {d : ℕ} (v : Fin d → ℂ) : 0 ≤ vnorm v := Real.sqrt_nonneg _

theorem orthogonal_ok {n : ℕ} (hn : 2 ≤ n) (qr : Op n → Op n × Op n) (hqr : ∀ A, Spec.IsQR A (qr A).1 (qr A).2)
    (v : Fin n → ℂ) (hv : 1e-8 < vnorm v) :
    ∃ M : Op n, getOrthogonalVectors qr v = some M ∧ M * Mᴴ = 1 ∧
      ∀ i, M i ⟨0, by omega⟩ = ((vnorm v : ℝ) : ℂ)⁻¹ * v i := by
  classical
  have hv0 : v ≠ 0 := by
    rintro rfl; rw [vnorm_eq_zero.2 rfl] at hv; norm_num at hv
  set z : Fin n := ⟨0, by omega⟩ with hz
  have hzj : ∀ j : Fin n, (j : ℕ) = 0 ↔ j = z := fun j => by rw [hz, Fin.ext_iff]
  set vhat : Fin n → ℂ := ((vnorm v : ℝ) : ℂ)⁻¹ • v with hvhat
  have hunit : Spec.IsUnitVec vhat := unit_normalise hv0
  set A : Op n := Matrix.of fun i j => if (j : ℕ) = 0 then vhat i else (1 : Op n) i j with hA
  obtain ⟨hQ, hR, hQR⟩ := hqr A
  set Q := (qr A).1
  set R := (qr A).2
  have hcol : ∀ i, vhat i = Q i z * R z z := by
    intro i
    have h1 : A i z = vhat i := by rw [hA, of_apply, if_pos rfl]
    rw [← h1, ← hQR, mul_apply, Finset.sum_eq_single z]
    · intro b _ hb
      rw [hR b z, mul_zero]
      exact Nat.pos_of_ne_zero fun h => hb ((hzj b).1 h)
    · simp
  have hr : conj (R z z) * R z z = 1 := by
    rw [unit_iff_inner, Spec.inner] at hunit
    have h2 : (∑ i, star (Q i z) * Q i z) = 1 := by
      have := congrFun (congrFun hQ z) z
      rw [mul_apply, one_apply_eq] at this
      simpa using this
    have h3 : (∑ i, star (vhat i) * vhat i) = conj (R z z) * R z z * ∑ i, star (Q i z) * Q i z := by
      rw [Finset.mul_sum]
      refine Finset.sum_congr rfl fun i _ => ?_
      rw [hcol i]
      simp only [star_mul', RCLike.star_def]
      ring
    rw [h2, mul_one] at h3
    rw [← h3, hunit]
  refine ⟨Matrix.of fun i j => if (j : ℕ) = 0 then vhat i else Q i j, ?_, ?_, ?_⟩
  · rw [getOrthogonalVectors, if_neg (by omega), if_neg]
    rw [isclose_zero_iff _ (vnorm_nonneg v)]
    linarith
  · have hM : (Matrix.of fun i j : Fin n => if (j : ℕ) = 0 then vhat i else Q i j) =
        Q * diagonal fun j => if j = z then R z z else 1 := by
      ext i j
      rw [mul_diagonal, of_apply]
      simp only [hzj]
      split_ifs with h
      · subst h; exact hcol i
      · rw [mul_one]
    rw [hM, conjTranspose_mul, mul_assoc, ← mul_assoc (diagonal _), diagonal_conjTranspose, diagonal_mul_diagonal]
    have h4 : (fun i : Fin n => (if i = z then R z z else 1) * star (fun j => if j = z then R z z else 1) i) = 1 := by
      funext i
      simp only [Pi.star_apply, Pi.one_apply]
      split_ifs
      · rw [mul_comm]; exact hr
      · simp
    rw [h4, show diagonal (1 : Fin n → ℂ) = 1 from diagonal_one, one_mul, mul_eq_one_comm.1 hQ]
  · intro i
    rw [of_apply, if_pos rfl]
    rfl

theorem pathU_eq {n : ℕ} (W V : Op n) : pathU W V = V * Wᴴ := by
  rw [pathU, foldl_add_eq_sum, zero_add]
  ext x y
  rw [← List.ofFn_eq_map, List.sum_ofFn]
  simp [mul_apply, Matrix.sum_apply]

theorem unitary_path_ok {n : ℕ} (hn : 2 ≤ n) (qr : Op n → Op n × Op n) (svd : Op n → Op n × (Fin n → ℝ) × Op n)
    (logm : Op n → Op n) (hqr : ∀ A, Spec.IsQR A (qr A).1 (qr A).2)
    (hlog : ∀ U : Op n, U * Uᴴ = 1 → Spec.IsPrincipalLog U (logm U)) (w v : Fin n → ℂ) (hw : w ≠ 0) (hv : v ≠ 0) :
    ∃ path, buildUnitaryPath qr svd logm w v = .ok path ∧ path 0 = ((vnorm w : ℝ) : ℂ)⁻¹ • w ∧
      path 1 = ((vnorm v : ℝ) : ℂ)⁻¹ • v ∧ ∀ t, Spec.IsUnitVec (path t) := by
  classical
  set w' : Fin n → ℂ := ((vnorm w : ℝ) : ℂ)⁻¹ • w with hw'
  set v' : Fin n → ℂ := ((vnorm v : ℝ) : ℂ)⁻¹ • v with hv'
  have hwu : Spec.IsUnitVec w' := unit_normalise hw
  have hvu : Spec.IsUnitVec v' := unit_normalise hv
  obtain ⟨W, hW, hWu, hW0⟩ := orthogonal_ok hn qr hqr w' (by rw [vnorm_unit hwu]; norm_num)
  obtain ⟨V, hV, hVu, hV0⟩ := orthogonal_ok hn qr hqr v' (by rw [vnorm_unit hvu]; norm_num)
  rw [vnorm_unit hwu] at hW0
  rw [vnorm_unit hvu] at hV0
  set U := V * Wᴴ with hU
  have hUU : U * Uᴴ = 1 := by
    rw [hU, conjTranspose_mul, conjTranspose_conjTranspose, mul_assoc, ← mul_assoc Wᴴ, mul_eq_one_comm.1 hWu, one_mul, hVu]
  have hL := hlog U hUU
  have hs := log_skew hUU hL
  have hw0 : w' = W *ᵥ Pi.single ⟨0, by omega⟩ 1 := by
    funext i; rw [mulVec_single_one]; simp [hW0]
  have hv0 : v' = V *ᵥ Pi.single ⟨0, by omega⟩ 1 := by
    funext i; rw [mulVec_single_one]; simp [hV0]
  have hUw : U *ᵥ w' = v' := by
    rw [hw0, mulVec_mulVec, hU, mul_assoc, mul_eq_one_comm.1 hWu, mul_one, hv0]
  have hgen : ∀ t : ℝ, (t : ℂ) • ((-Complex.I) • (Complex.I • logm U)) = (t : ℂ) • logm U := by
    intro t
    rw [smul_smul (-Complex.I)]
    simp
  refine ⟨fun t => expm ((t : ℂ) • ((-Complex.I) • (Complex.I • logm U))) *ᵥ w', ?_, ?_, ?_, ?_⟩
  · rw [buildUnitaryPath]
    simp only [← hw', ← hv', hW, hV, pathU_eq, ← hU]
    rw [pyAssert_ok (allclose_of_eq hWu), pyAssert_ok (allclose_of_eq hVu)]
    simp only [if_pos (allclose_of_eq hUU)]
    have hH : Complex.I • logm U - (Complex.I • logm U)ᴴ = 0 := by
      rw [conjTranspose_smul, hs]; simp
    rw [pyAssert_ok (allclose_of_eq hUU), pyAssert_ok (allclose_of_eq hH)]
    rfl
  · simp [expm, NormedSpace.exp_zero]
  · have h1 : expm (logm U) = U := hL.exp_eq
    simp only [hgen]
    rw [Complex.ofReal_one, one_smul, h1, hUw]
  · intro t
    simp only [hgen]
    apply unit_mulVec (expm_unitary _) hwu
    rw [conjTranspose_smul, hs]
    simp

/-! ## squares equal to minus one -/

theorem expm_scalar {d : ℕ} (c : ℂ) : expm (c • (1 : Op d)) = Complex.exp c • 1 := by
  have h1 : (c • (1 : Op d)) = diagonal fun _ => c := by rw [smul_one_eq_diagonal]
  rw [h1, expm, Matrix.exp_diagonal, smul_one_eq_diagonal]
  congr 1
  funext i
  rw [Pi.coe_exp, Complex.exp_eq_exp_ℂ]

theorem expm_sq_neg_one {d : ℕ} {M : Op d} (h : M * M = -1) (t : ℂ) :
    expm (t • M) = Complex.cos t • 1 + Complex.sin t • M := by
  have hp : ∀ z : ℂ, z * z = -1 → expm (t • M) * (M + z • 1) = Complex.exp (t * z) • (M + z • 1) := by
    intro z hz
    have h1 := expm_intertwine (t • M) ((t * z) • (1 : Op d)) (M + z • 1) (by
      simp only [Matrix.smul_mul, Matrix.mul_smul, mul_add, add_mul, mul_one, one_mul, h, smul_add, smul_smul]
      have : t * z * z = -t := by linear_combination t * hz
      rw [this]
      rw [mul_comm z t, neg_smul, smul_neg, add_comm])
    rw [h1, expm_scalar, Matrix.mul_smul, mul_one]
  have h1 := hp Complex.I Complex.I_mul_I
  have h2 := hp (-Complex.I) (by rw [neg_mul_neg, Complex.I_mul_I])
  have h3 : (2 * Complex.I) • expm (t • M) = (2 * Complex.I) • (Complex.cos t • 1 + Complex.sin t • M) := by
    calc (2 * Complex.I) • expm (t • M)
        = expm (t • M) * (M + Complex.I • 1) - expm (t • M) * (M + (-Complex.I) • 1) := by
          rw [← mul_sub]; simp only [add_sub_add_left_eq_sub, ← sub_smul]
          rw [Matrix.mul_smul, mul_one]; congr 1; ring
      _ = _ := by
          rw [h1, h2, Complex.cos, Complex.sin]
          ext i j
          simp only [Matrix.sub_apply, Matrix.smul_apply, Matrix.add_apply, smul_eq_mul]
          rw [show t * -Complex.I = -t * Complex.I by ring]
          ring_nf
          simp only [Complex.I_sq]
          ring
  have h4 : (2 * Complex.I : ℂ) ≠ 0 := by simp
  exact smul_right_injective _ h4 h3

end FF
