import Verif.Proofs.IeeeCx

/-! # Property C140 for complex arrays: no overflow for entries of bounded size -/

namespace FF.Props

open Matrix Equiv

/-- C140. `dt` and `pt` of a complex array whose entries have finite real and imaginary parts of size at most `2^k` return a finite number if
`n! * 2^((k+1)*n) < 2^1024` (and `n! < 2^53`, that is `n ≤ 18`). -/
theorem C140_dt_pt_finite_complex {n k : ℕ} (hn : n.factorial < 2 ^ 53)
    (hk : (n.factorial : ℝ) * 2 ^ ((k + 1) * n) < 2 ^ (1024 : ℕ)) (A : Matrix (Fin n) (Fin n) Cx)
    (hA : ∀ i j, ∃ x y, A i j = ⟨.fin x, .fin y⟩ ∧ |x| ≤ 2 ^ k ∧ |y| ≤ 2 ^ k) :
    (∃ x y, dtCx A = .ok ⟨.fin x, .fin y⟩ ∧ |x| ≤ n.factorial * 2 ^ ((k + 1) * n) ∧ |y| ≤ n.factorial * 2 ^ ((k + 1) * n)) ∧
    ∃ x y, ptCx A = .ok ⟨.fin x, .fin y⟩ ∧ |x| ≤ n.factorial * 2 ^ ((k + 1) * n) ∧ |y| ≤ n.factorial * 2 ^ ((k + 1) * n) := by
  obtain ⟨L, hnd, hc, hL⟩ := exists_perms n
  have hlen := length_perms hnd hc
  have hkn := pow_lt_of_factorial hk
  have hp : ∀ σ : Perm (Fin n), (prodOn cxArith (List.ofFn fun i => A i (σ i))).Le (2 ^ ((k + 1) * n)) := fun σ => by
    have := cx_prodOn_le (List.ofFn fun i => A i (σ i)) (k := k) (by
      intro x hx; obtain ⟨i, rfl⟩ := List.mem_ofFn.1 hx; exact cx_le_of (hA _ _)) (by simpa using hkn)
    simpa using this
  constructor
  · have := cx_sumOn_le (L.map fun σ => cxArith.mul (cxArith.ofInt (Perm.sign σ)) (prodOn cxArith (List.ofFn fun i => A i (σ i))))
      (p := (k + 1) * n) (by
        intro x hx
        obtain ⟨σ, -, rfl⟩ := List.mem_map.1 hx
        exact Cx.unit_mul_le (sign_le σ) (hp σ) hkn) (by rw [List.length_map, hlen]; exact hn) (by rw [List.length_map, hlen]; exact hk)
    rw [List.length_map, hlen] at this
    rw [dtCx, dtOn_ok _ _ hL]
    exact cx_of_le this
  · have := cx_sumOn_le (L.map fun σ => (prodOn cxArith (List.ofFn fun i => A i (σ i))))
      (p := (k + 1) * n) (by
        intro x hx
        obtain ⟨σ, -, rfl⟩ := List.mem_map.1 hx
        exact hp σ) (by rw [List.length_map, hlen]; exact hn) (by rw [List.length_map, hlen]; exact hk)
    rw [List.length_map, hlen] at this
    rw [ptCx, ptOn_ok _ _ hL]
    exact cx_of_le this

/-- C140. `pf` and `hf` of a complex array with `2m` rows whose entries off the diagonal have finite real and imaginary parts of size at most
`2^k` return a finite number if `(2m)! * 2^((k+1)*m) < 2^1024` (and `(2m)! < 2^53`). The diagonal may hold infinities or nan. -/
theorem C140_pf_hf_finite_complex {m k : ℕ} (hn : (2 * m).factorial < 2 ^ 53)
    (hk : ((2 * m).factorial : ℝ) * 2 ^ ((k + 1) * m) < 2 ^ (1024 : ℕ)) (A : Matrix (Fin (2 * m)) (Fin (2 * m)) Cx)
    (hA : ∀ i j, i ≠ j → ∃ x y, A i j = ⟨.fin x, .fin y⟩ ∧ |x| ≤ 2 ^ k ∧ |y| ≤ 2 ^ k) :
    (∃ x y, pfCx A = .ok ⟨.fin x, .fin y⟩ ∧ |x| ≤ (2 * m).factorial * 2 ^ ((k + 1) * m) ∧
      |y| ≤ (2 * m).factorial * 2 ^ ((k + 1) * m)) ∧
    ∃ x y, hfCx A = .ok ⟨.fin x, .fin y⟩ ∧ |x| ≤ (2 * m).factorial * 2 ^ ((k + 1) * m) ∧
      |y| ≤ (2 * m).factorial * 2 ^ ((k + 1) * m) := by
  obtain ⟨L, hnd, hc, hL⟩ := exists_perms (2 * m)
  have hlen := length_perms hnd hc
  have hkn := pow_lt_of_factorial hk
  have hp : ∀ σ : Perm (Fin (2 * m)), (prodOn cxArith (List.ofFn fun i : Fin m => A (σ (ev i)) (σ (od i)))).Le (2 ^ ((k + 1) * m)) :=
    fun σ => by
      have := cx_prodOn_le (List.ofFn fun i : Fin m => A (σ (ev i)) (σ (od i))) (k := k) (by
        intro x hx; obtain ⟨i, rfl⟩ := List.mem_ofFn.1 hx; exact cx_le_of (hA _ _ fun h => ev_ne_od' i (σ.injective h)))
        (by simpa using hkn)
      simpa using this
  have hd1 : (1 : ℤ) ≤ 2 ^ m * m.factorial := den_pos m
  have hd2 : (2 ^ m * m.factorial : ℤ) < 2 ^ 53 := by exact_mod_cast (two_pow_mul_factorial_le m).trans_lt hn
  constructor
  · have := cx_sumOn_le (L.map fun σ => cxArith.mul (cxArith.ofInt (Perm.sign σ))
      (prodOn cxArith (List.ofFn fun i : Fin m => A (σ (ev i)) (σ (od i))))) (p := (k + 1) * m) (by
        intro x hx
        obtain ⟨σ, -, rfl⟩ := List.mem_map.1 hx
        exact Cx.unit_mul_le (sign_le σ) (hp σ) hkn) (by rw [List.length_map, hlen]; exact hn) (by rw [List.length_map, hlen]; exact hk)
    rw [List.length_map, hlen] at this
    letI iz := cxZero
    rw [pfCx, pfOn_ok _ _ _ hL]
    exact cx_of_le (Cx.div_le hd1 hd2 this hn hk)
  · have := cx_sumOn_le (L.map fun σ => (prodOn cxArith (List.ofFn fun i : Fin m => A (σ (ev i)) (σ (od i))))) (p := (k + 1) * m) (by
        intro x hx
        obtain ⟨σ, -, rfl⟩ := List.mem_map.1 hx
        exact hp σ) (by rw [List.length_map, hlen]; exact hn) (by rw [List.length_map, hlen]; exact hk)
    rw [List.length_map, hlen] at this
    letI iz := cxZero
    rw [hfCx, hfOn_ok _ _ _ hL]
    exact cx_of_le (Cx.div_le hd1 hd2 this hn hk)

/-- The hypotheses are met: every 10×10 array with the entry `2^80 + 2^80 i` everywhere has a finite determinant and permanent. -/
example : (∃ x y, dtCx (Matrix.of fun _ _ : Fin 10 => (⟨.fin (2 ^ 80), .fin (2 ^ 80)⟩ : Cx)) = .ok ⟨.fin x, .fin y⟩) ∧
    ∃ x y, ptCx (Matrix.of fun _ _ : Fin 10 => (⟨.fin (2 ^ 80), .fin (2 ^ 80)⟩ : Cx)) = .ok ⟨.fin x, .fin y⟩ := by
  obtain ⟨⟨x, y, h, -⟩, u, v, h', -⟩ := C140_dt_pt_finite_complex (n := 10) (k := 80) (by norm_num [Nat.factorial])
    (bound_of_pow (e := 22) (by norm_num [Nat.factorial]) (by norm_num))
    (Matrix.of fun _ _ : Fin 10 => (⟨.fin (2 ^ 80), .fin (2 ^ 80)⟩ : Cx)) fun i j => ⟨_, _, rfl, by norm_num, by norm_num⟩
  exact ⟨⟨x, y, h⟩, u, v, h'⟩

/-- The hypotheses are met, with infinities on the diagonal. -/
example : (∃ x y, pfCx (Matrix.of fun i j : Fin (2 * 3) => (if i = j then ⟨.inf false, .nan⟩ else ⟨.fin 3, .fin 4⟩ : Cx)) =
    .ok ⟨.fin x, .fin y⟩) := by
  obtain ⟨⟨x, y, h, -⟩, -⟩ := C140_pf_hf_finite_complex (m := 3) (k := 2) (by norm_num [Nat.factorial])
    (bound_of_pow (e := 10) (by norm_num [Nat.factorial]) (by norm_num))
    (Matrix.of fun i j : Fin (2 * 3) => (if i = j then ⟨.inf false, .nan⟩ else ⟨.fin 3, .fin 4⟩ : Cx)) fun i j hij =>
      ⟨3, 4, by simp [hij], by norm_num, by norm_num⟩
  exact ⟨x, y, h⟩

end FF.Props
