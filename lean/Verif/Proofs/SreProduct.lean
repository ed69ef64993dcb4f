import Verif.Proofs.Reduced
import Verif.Proofs.Stabilizer
import Verif.Props.Stabilizer

/-! # Helper lemmas: the stabilizer distribution of a product state -/

namespace FF

open Matrix

variable {a b : ℕ}

theorem kr_npKron (A : Op (2 ^ a)) (B : Op (2 ^ b)) :
    kr A B = (npKron A B).submatrix (finCongr (pow_add 2 a b)) (finCongr (pow_add 2 a b)) := by
  ext u v
  obtain ⟨⟨x, y⟩, rfl⟩ := (sIdx a b).surjective u
  obtain ⟨⟨x', y'⟩, rfl⟩ := (sIdx a b).surjective v
  rw [kr_apply, submatrix_apply]
  have e : ∀ (x : Fin (2 ^ a)) (y : Fin (2 ^ b)), finCongr (pow_add 2 a b) (sIdx a b (x, y)) = finProdFinEquiv (x, y) :=
    fun x y => Fin.ext (by simp [sIdx])
  rw [e, e]
  change _ = A (finProdFinEquiv.symm (finProdFinEquiv (x, y))).1 (finProdFinEquiv.symm (finProdFinEquiv (x', y'))).1 *
    B (finProdFinEquiv.symm (finProdFinEquiv (x, y))).2 (finProdFinEquiv.symm (finProdFinEquiv (x', y'))).2
  rw [Equiv.symm_apply_apply, Equiv.symm_apply_apply]

theorem isState_congr {D D' : ℕ} (h : D' = D) {z : Arr} {M : Op D} (hz : Spec.IsState z M) :
    Spec.IsState z (M.submatrix (finCongr h) (finCongr h)) := by
  subst h; exact hz

theorem kr_state {ρ : Op (2 ^ a)} {σ : Op (2 ^ b)} {z : Arr} (hz : Spec.IsState z (npKron ρ σ)) :
    Spec.IsState z (kr ρ σ) := by
  rw [kr_npKron]
  exact isState_congr (pow_add 2 a b) hz

theorem kr_trace (A : Op (2 ^ a)) (B : Op (2 ^ b)) : (kr A B).trace = A.trace * B.trace := by
  rw [trace_sites, Matrix.trace, Matrix.trace, Finset.sum_mul_sum]
  exact Finset.sum_congr rfl fun _ _ => Finset.sum_congr rfl fun _ _ => by rw [kr_apply]; rfl

theorem pauliString_split (w : Fin (a + b) → Fin 4) : Spec.pauliString w =
    kr (Spec.pauliString fun i => w (Fin.castAdd b i)) (Spec.pauliString fun i => w (Fin.natAdd a i)) := by
  rw [pauliString_eq, pauliString_eq, pauliString_eq, kronAll_split]

theorem digit4_first (k : ℕ) (i : Fin a) :
    Spec.digit 4 (a + b) k (Fin.castAdd b i) = Spec.digit 4 a (k / 4 ^ b) i := by
  apply Fin.ext
  have h : a + b - 1 - ((Fin.castAdd b i : Fin _) : ℕ) = b + (a - 1 - i) := by
    rw [Fin.val_castAdd]; omega
  change _ / 4 ^ (a + b - 1 - ((Fin.castAdd b i : Fin _) : ℕ)) % 4 = k / 4 ^ b / 4 ^ (a - 1 - (i : ℕ)) % 4
  rw [h, pow_add, ← Nat.div_div_eq_div_mul]

theorem digit4_last (k : ℕ) (i : Fin b) :
    Spec.digit 4 (a + b) k (Fin.natAdd a i) = Spec.digit 4 b (k % 4 ^ b) i := by
  apply Fin.ext
  have h : a + b - 1 - ((Fin.natAdd a i : Fin _) : ℕ) = b - 1 - i := by
    rw [Fin.val_natAdd]; omega
  change _ / 4 ^ (a + b - 1 - ((Fin.natAdd a i : Fin _) : ℕ)) % 4 = k % 4 ^ b / 4 ^ (b - 1 - (i : ℕ)) % 4
  have hb : 4 ^ b = 4 ^ (b - 1 - (i : ℕ)) * (4 * 4 ^ (i : ℕ)) := by
    rw [← pow_succ', ← pow_add]; congr 1; omega
  rw [h]
  conv_lhs => rw [← Nat.mod_add_div k (4 ^ b)]
  conv_lhs => rw [show 4 ^ b * (k / 4 ^ b) = 4 ^ (b - 1 - (i : ℕ)) * (4 * (4 ^ (i : ℕ) * (k / 4 ^ b))) by
    rw [← mul_assoc 4, ← mul_assoc (4 ^ (b - 1 - (i : ℕ))), ← hb]]
  rw [Nat.add_mul_div_left _ _ (by positivity), Nat.add_mul_mod_self_left]

theorem pexp_kr {ρ : Op (2 ^ a)} {σ : Op (2 ^ b)} (hρ : ρᴴ = ρ) (hσ : σᴴ = σ) (w : Fin (a + b) → Fin 4) :
    pexp (kr ρ σ) w = pexp ρ (fun i => w (Fin.castAdd b i)) * pexp σ fun i => w (Fin.natAdd a i) := by
  rw [pexp, pauliString_split, kr_mul, kr_trace, pexp_eq hρ, pexp_eq hσ, ← Complex.ofReal_mul, Complex.ofReal_re]

theorem purity_kr {ρ : Op (2 ^ a)} {σ : Op (2 ^ b)} (hρ : ρᴴ = ρ) (hσ : σᴴ = σ) :
    ((kr ρ σ * kr ρ σ).trace).re = ((ρ * ρ).trace).re * ((σ * σ).trace).re := by
  rw [kr_mul, kr_trace, Complex.mul_re, trace_herm_real hρ hρ, zero_mul, sub_zero]

theorem xiF_kr {ρ : Op (2 ^ a)} {σ : Op (2 ^ b)} (hρ : ρᴴ = ρ) (hσ : σᴴ = σ) (k : Fin (4 ^ a * 4 ^ b)) :
    xiF (kr ρ σ) (Fin.cast (pow_add 4 a b).symm k) = Spec.product (xiF ρ) (xiF σ) k := by
  rw [xiF, pexp_kr hρ hσ, purity_kr hρ hσ, Spec.product, xiF, xiF, pow_add (2 : ℝ) a b, mul_pow, mul_mul_mul_comm, mul_div_mul_comm]
  simp only [digit4_first, digit4_last]
  rfl

theorem renyi_cast {D D' : ℕ} (h : D = D') (p : Fin D' → ℝ) (o : ℝ) : Spec.renyi (fun k : Fin D => p (Fin.cast h k)) o = Spec.renyi p o := by
  subst h; rfl

theorem max_cast {D D' : ℕ} (h : D = D') (p : Fin D' → ℝ) (m : ℝ) : Spec.IsMax (fun k : Fin D => p (Fin.cast h k)) m ↔ Spec.IsMax p m := by
  subst h; rfl

theorem ofFn_cast {D D' : ℕ} (h : D = D') (p : Fin D' → ℝ) : List.ofFn (fun k : Fin D => p (Fin.cast h k)) = List.ofFn p := by
  subst h; rfl

theorem xiF_kr_fun {ρ : Op (2 ^ a)} {σ : Op (2 ^ b)} (hρ : ρᴴ = ρ) (hσ : σᴴ = σ) :
    (fun k => xiF (kr ρ σ) (Fin.cast (pow_add 4 a b).symm k)) = Spec.product (xiF ρ) (xiF σ) := funext (xiF_kr hρ hσ)

theorem purity_kr_big {ρ : Op (2 ^ a)} {σ : Op (2 ^ b)} (hρ : ρᴴ = ρ) (hσ : σᴴ = σ)
    (h1 : 100003 / 100000 ≤ 2 ^ a * ((ρ * ρ).trace).re) (h2 : 100003 / 100000 ≤ 2 ^ b * ((σ * σ).trace).re) :
    100003 / 100000 ≤ 2 ^ (a + b) * ((kr ρ σ * kr ρ σ).trace).re := by
  rw [purity_kr hρ hσ, pow_add, mul_mul_mul_comm]
  nlinarith

end FF
