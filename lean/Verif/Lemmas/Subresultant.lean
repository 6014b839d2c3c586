import Mathlib.LinearAlgebra.Matrix.Determinant.Basic
import Mathlib.LinearAlgebra.Matrix.Block
import Mathlib.LinearAlgebra.Matrix.SchurComplement
import Mathlib.Algebra.Polynomial.Degree.Lemmas
import Mathlib.RingTheory.Polynomial.Resultant.Basic
import Mathlib.Tactic

/-!
# Subresultants

Determinant polynomials and the facts about subresultant remainder sequences that make every
division of the code exact.  Pure mathematics: nothing here mentions the model.
-/

namespace Algebraics.Subres

open Polynomial Matrix

variable {R : Type*} [CommRing R]

/-- `A = ±B` -/
def SignEq {M : Type*} [Neg M] (a b : M) : Prop := a = b ∨ a = -b

theorem SignEq.refl {M : Type*} [Neg M] (a : M) : SignEq a a := Or.inl rfl

theorem SignEq.symm {M : Type*} [InvolutiveNeg M] {a b : M} (h : SignEq a b) : SignEq b a := by
  rcases h with h | h
  · exact Or.inl h.symm
  · exact Or.inr (by rw [h, neg_neg])

theorem SignEq.trans {M : Type*} [InvolutiveNeg M] {a b c : M} (h : SignEq a b) (h' : SignEq b c) :
    SignEq a c := by
  rcases h with rfl | rfl <;> rcases h' with rfl | rfl
  · exact Or.inl rfl
  · exact Or.inr rfl
  · exact Or.inr rfl
  · exact Or.inl (neg_neg _)

theorem SignEq.mul_left {S : Type*} [CommRing S] {a b : S} (c : S) (h : SignEq a b) :
    SignEq (c * a) (c * b) := by
  rcases h with rfl | rfl
  · exact Or.inl rfl
  · exact Or.inr (by ring)

theorem SignEq.mul {S : Type*} [CommRing S] {a b c d : S} (h : SignEq a b) (h' : SignEq c d) :
    SignEq (a * c) (b * d) := by
  rcases h with rfl | rfl <;> rcases h' with rfl | rfl
  · exact Or.inl rfl
  · exact Or.inr (by ring)
  · exact Or.inr (by ring)
  · exact Or.inl (by ring)

theorem SignEq.pow {S : Type*} [CommRing S] {a b : S} (h : SignEq a b) (n : ℕ) :
    SignEq (a ^ n) (b ^ n) := by
  induction n with
  | zero => exact Or.inl (by simp)
  | succ n ih => rw [pow_succ, pow_succ]; exact ih.mul h

theorem SignEq.neg_left {S : Type*} [InvolutiveNeg S] {a b : S} (h : SignEq a b) :
    SignEq (-a) b := by
  rcases h with rfl | rfl
  · exact Or.inr rfl
  · exact Or.inl (neg_neg _)

theorem SignEq.cancel {S : Type*} [CommRing S] [IsDomain S] {a b c : S} (hc : c ≠ 0)
    (h : SignEq (c * a) (c * b)) : SignEq a b := by
  rcases h with h | h
  · exact Or.inl (mul_left_cancel₀ hc h)
  · exact Or.inr (mul_left_cancel₀ hc (by rw [h]; ring))

theorem SignEq.congr {M : Type*} [Neg M] {a b a' b' : M} (h : SignEq a b) (e1 : a' = a)
    (e2 : b' = b) : SignEq a' b' := by
  rw [e1, e2]; exact h

theorem SignEq.map {S S' : Type*} [CommRing S] [CommRing S'] (f : S →+* S') {a b : S}
    (h : SignEq a b) : SignEq (f a) (f b) := by
  rcases h with rfl | rfl
  · exact Or.inl rfl
  · exact Or.inr (map_neg f b)

/-- the matrix of a determinant polynomial: column `c` holds the coefficient of `X^(j+N-1-c)`, the
last column the polynomial itself -/
noncomputable def dpMat (j N : ℕ) {ι : Type*} (P : ι → R[X]) : Matrix ι (Fin N) R[X] :=
  Matrix.of fun r c => if (c : ℕ) + 1 = N then P r else C ((P r).coeff (j + (N - 1 - c)))

/-- determinant polynomial -/
noncomputable def dp (j N : ℕ) (P : Fin N → R[X]) : R[X] := (dpMat j N P).det

theorem dp_one (j : ℕ) (P : Fin 1 → R[X]) : dp j 1 P = P 0 := by
  simp [dp, dpMat]

/-- remove the first row when all other rows have no coefficient in the first column -/
theorem dp_peel (j N : ℕ) (hN : 1 ≤ N) (P : Fin (N + 1) → R[X])
    (h : ∀ r : Fin N, (P r.succ).coeff (j + N) = 0) :
    dp j (N + 1) P = C ((P 0).coeff (j + N)) * dp j N (fun r => P r.succ) := by
  unfold dp
  rw [Matrix.det_succ_column_zero, Fin.sum_univ_succ]
  have h0 : ∀ r, dpMat j (N + 1) P r 0 = C ((P r).coeff (j + N)) := by
    intro r
    have h1 : ¬ (((0 : Fin (N + 1)) : ℕ) + 1 = N + 1) := by simp; omega
    simp only [dpMat, Matrix.of_apply, if_neg h1]
    simp
  have hz : ∑ i : Fin N, (-1 : R[X]) ^ ((i.succ : Fin (N+1)) : ℕ) * dpMat j (N + 1) P i.succ 0 *
      ((dpMat j (N + 1) P).submatrix i.succ.succAbove Fin.succ).det = 0 := by
    apply Finset.sum_eq_zero
    intro i _
    rw [h0, h i]; simp
  rw [hz, h0]
  simp only [Fin.val_zero, pow_zero, one_mul, add_zero]
  congr 2
  ext r c
  simp only [Matrix.submatrix_apply, dpMat, Matrix.of_apply, Fin.val_succ, Fin.zero_succAbove]
  have : j + (N + 1 - 1 - ((c : ℕ) + 1)) = j + (N - 1 - c) := by omega
  rw [this]
  by_cases hc : (c : ℕ) + 1 = N
  · rw [if_pos (by omega), if_pos hc]
  · rw [if_neg (by omega), if_neg hc]

/-- reordering the rows changes at most the sign -/
theorem dp_perm (j N : ℕ) (P : Fin N → R[X]) (σ : Equiv.Perm (Fin N)) :
    SignEq (dp j N (P ∘ σ)) (dp j N P) := by
  unfold dp
  have : dpMat j N (P ∘ σ) = (dpMat j N P).submatrix σ id := by
    ext r c; simp [dpMat]
  rw [this, Matrix.det_permute]
  rcases Int.units_eq_one_or (Equiv.Perm.sign σ) with h | h
  · left; rw [h]; simp
  · right; rw [h]; simp

/-- rows of the subresultant: `a` shifts of `G`, then `b` shifts of `F` -/
noncomputable def rows (a b : ℕ) (F G : R[X]) : Fin a ⊕ Fin b → R[X] :=
  Sum.elim (fun t => X ^ (a - 1 - t) * G) (fun t => X ^ (b - 1 - t) * F)

/-- the `j`-th subresultant of `F` (degree at most `j + a`) and `G` (degree at most `j + b`) -/
noncomputable def SR (j a b : ℕ) (F G : R[X]) : R[X] :=
  dp j (a + b) (rows a b F G ∘ finSumFinEquiv.symm)

theorem SR_flip (j a b : ℕ) (F G : R[X]) : SignEq (SR j a b F G) (SR j b a G F) := by
  unfold SR
  have hN : a + b = b + a := add_comm a b
  -- transport along the equality of sizes
  have key : ∀ (N : ℕ) (h : N = b + a) (P : Fin (b + a) → R[X]),
      dp j (b + a) P = dp j N (P ∘ Fin.cast h) := by
    intro N h P; subst h; rfl
  rw [key (a + b) hN]
  let σ : Equiv.Perm (Fin (a + b)) :=
    finSumFinEquiv.symm.trans ((Equiv.sumComm (Fin a) (Fin b)).trans
      (finSumFinEquiv.trans (finCongr hN.symm)))
  have : (rows a b F G ∘ finSumFinEquiv.symm) =
      (((rows b a G F ∘ finSumFinEquiv.symm) ∘ Fin.cast hN) ∘ σ) := by
    funext x
    obtain ⟨y, rfl⟩ := finSumFinEquiv.surjective x
    have hσ : Fin.cast hN (σ (finSumFinEquiv y)) = finSumFinEquiv (Sum.swap y) := by
      simp [σ]
    simp only [Function.comp_apply, hσ, Equiv.symm_apply_apply]
    cases y <;> simp [rows]
  rw [this]
  exact dp_perm j (a + b) _ σ

/-- linear combinations of rows -/
theorem dp_lin (j : ℕ) {ι : Type*} [Fintype ι] [DecidableEq ι] {N : ℕ} (e : Fin N ≃ ι)
    (U : Matrix ι ι R) (P P' : ι → R[X]) (h : ∀ i, P' i = ∑ k, C (U i k) * P k) :
    dp j N (P' ∘ e) = C U.det * dp j N (P ∘ e) := by
  unfold dp
  have : dpMat j N (P' ∘ e) = (U.map C).submatrix e e * dpMat j N (P ∘ e) := by
    ext r c : 2
    rw [Matrix.mul_apply]
    simp only [dpMat, Matrix.of_apply, Function.comp_apply, Matrix.submatrix_apply, Matrix.map_apply]
    by_cases hc : (c : ℕ) + 1 = N
    · simp only [if_pos hc]
      rw [h, ← Equiv.sum_comp e]
    · simp only [if_neg hc]
      rw [h, Polynomial.finsetSum_coeff, map_sum, ← Equiv.sum_comp e]
      simp [coeff_C_mul]
  rw [this, Matrix.det_mul, Matrix.det_submatrix_equiv_self]
  congr 1
  rw [← RingHom.mapMatrix_apply, ← RingHom.map_det]

theorem dp_cast (j : ℕ) {N M : ℕ} (h : N = M) (P : Fin M → R[X]) :
    dp j M P = dp j N (P ∘ Fin.cast h) := by
  subst h; rfl

theorem sum_coeff_shift (a : ℕ) (p : R[X]) (h : p.natDegree < a) :
    ∑ s : Fin a, C (p.coeff (a - 1 - s)) * X ^ (a - 1 - (s : ℕ)) = p := by
  rw [← Equiv.sum_comp Fin.revPerm]
  conv_rhs => rw [p.as_sum_range_C_mul_X_pow' h]
  rw [Finset.sum_range]
  apply Finset.sum_congr rfl
  intro s _
  have : a - 1 - ((Fin.revPerm s : Fin a) : ℕ) = s := by
    rw [Fin.revPerm_apply, Fin.val_rev]; omega
  rw [this]

/-- replacing `F` by a combination with `G` -/
theorem SR_rowop (j a b : ℕ) (F G H Q : R[X]) (c β : R) (h : C c * F = Q * G + C β * H)
    (hQ : b = 0 ∨ Q.natDegree + b ≤ a) :
    C (c ^ b) * SR j a b F G = C (β ^ b) * SR j a b H G := by
  unfold SR
  let P' : Fin a ⊕ Fin b → R[X] :=
    Sum.elim (fun t => X ^ (a - 1 - (t : ℕ)) * G) (fun t => X ^ (b - 1 - (t : ℕ)) * (C c * F))
  have h1 : dp j (a + b) (P' ∘ finSumFinEquiv.symm) =
      C (Matrix.fromBlocks (1 : Matrix (Fin a) (Fin a) R) 0 0 (c • (1 : Matrix (Fin b) (Fin b) R))).det *
        dp j (a + b) (rows a b F G ∘ finSumFinEquiv.symm) := by
    apply dp_lin
    rintro (i | i)
    · simp [P', rows, Matrix.one_apply]
    · simp [P', rows, Matrix.one_apply, apply_ite C, ite_mul]
      ring
  have h2 : dp j (a + b) (P' ∘ finSumFinEquiv.symm) =
      C (Matrix.fromBlocks (1 : Matrix (Fin a) (Fin a) R) 0
          (Matrix.of fun (t : Fin b) (s : Fin a) => (X ^ (b - 1 - (t : ℕ)) * Q).coeff (a - 1 - s))
          (β • (1 : Matrix (Fin b) (Fin b) R))).det *
        dp j (a + b) (rows a b H G ∘ finSumFinEquiv.symm) := by
    apply dp_lin
    rintro (i | i)
    · simp [P', rows, Matrix.one_apply]
    · have hdeg : (X ^ (b - 1 - (i : ℕ)) * Q).natDegree < a := by
        have hi := i.2
        have := natDegree_mul_le (p := (X : R[X]) ^ (b - 1 - (i : ℕ))) (q := Q)
        have h3 : ((X : R[X]) ^ (b - 1 - (i : ℕ))).natDegree ≤ b - 1 - i := natDegree_X_pow_le _
        omega
      have hs := sum_coeff_shift a _ hdeg
      simp only [P', rows, Fintype.sum_sum_type, Sum.elim_inr, Sum.elim_inl,
        Matrix.fromBlocks_apply₂₁, Matrix.fromBlocks_apply₂₂, Matrix.of_apply, Matrix.smul_apply,
        Matrix.one_apply]
      rw [h, mul_add, ← mul_assoc]
      congr 1
      · conv_lhs => rw [← hs]
        rw [Finset.sum_mul]
        apply Finset.sum_congr rfl
        intro s _
        ring
      · simp [apply_ite C, ite_mul]
        ring
  rw [h1, Matrix.det_fromBlocks_zero₁₂, Matrix.det_fromBlocks_zero₁₂] at h2
  simpa [Matrix.det_smul] using h2

theorem SR_peel (j a b : ℕ) (F G : R[X]) (hab : 1 ≤ a + b) (hG : G.natDegree ≤ j + b)
    (hF : b = 0 ∨ F.natDegree ≤ j + a) :
    SR j (a + 1) b F G = C (G.coeff (j + b)) * SR j a b F G := by
  unfold SR
  have hN : a + b + 1 = a + 1 + b := by omega
  rw [dp_cast j hN, dp_peel j (a + b) hab]
  · congr 2
    · have : Fin.cast hN 0 = finSumFinEquiv (Sum.inl (0 : Fin (a + 1)) : Fin (a + 1) ⊕ Fin b) := by
        ext; simp
      simp only [Function.comp_apply, this, Equiv.symm_apply_apply, rows, Sum.elim_inl]
      rw [show j + (a + b) = (j + b) + (a + 1 - 1 - ((0 : Fin (a + 1)) : ℕ)) by simp; ring,
        coeff_X_pow_mul]
    · congr 1
      funext r
      obtain ⟨y, rfl⟩ := finSumFinEquiv.surjective r
      rcases y with t | t
      · have : Fin.cast hN (finSumFinEquiv (Sum.inl t : Fin a ⊕ Fin b)).succ =
            finSumFinEquiv (Sum.inl t.succ : Fin (a + 1) ⊕ Fin b) := by
          ext; simp
        simp only [Function.comp_apply, this, Equiv.symm_apply_apply, rows, Sum.elim_inl]
        congr 2
        simp; omega
      · have : Fin.cast hN (finSumFinEquiv (Sum.inr t : Fin a ⊕ Fin b)).succ =
            finSumFinEquiv (Sum.inr t : Fin (a + 1) ⊕ Fin b) := by
          ext; simp; omega
        simp only [Function.comp_apply, this, Equiv.symm_apply_apply, rows, Sum.elim_inr]
  · intro r
    obtain ⟨y, rfl⟩ := finSumFinEquiv.surjective r
    rcases y with t | t
    · have : Fin.cast hN (finSumFinEquiv (Sum.inl t : Fin a ⊕ Fin b)).succ =
          finSumFinEquiv (Sum.inl t.succ : Fin (a + 1) ⊕ Fin b) := by
        ext; simp
      simp only [Function.comp_apply, this, Equiv.symm_apply_apply, rows, Sum.elim_inl]
      have ht := t.2
      rw [show j + (a + b) = (j + b + 1 + t) + (a + 1 - 1 - ((t.succ : Fin (a + 1)) : ℕ)) by
        simp; omega, coeff_X_pow_mul]
      exact coeff_eq_zero_of_natDegree_lt (by omega)
    · have : Fin.cast hN (finSumFinEquiv (Sum.inr t : Fin a ⊕ Fin b)).succ =
          finSumFinEquiv (Sum.inr t : Fin (a + 1) ⊕ Fin b) := by
        ext; simp; omega
      simp only [Function.comp_apply, this, Equiv.symm_apply_apply, rows, Sum.elim_inr]
      have ht := t.2
      rw [show j + (a + b) = (j + a + 1 + t) + (b - 1 - (t : ℕ)) by omega, coeff_X_pow_mul]
      exact coeff_eq_zero_of_natDegree_lt (by omega)

theorem SR_peel_many (j a b k : ℕ) (F G : R[X]) (hab : 1 ≤ a + b) (hG : G.natDegree ≤ j + b)
    (hF : b = 0 ∨ F.natDegree ≤ j + a) :
    SR j (a + k) b F G = C (G.coeff (j + b) ^ k) * SR j a b F G := by
  induction k with
  | zero => simp
  | succ k ih =>
    rw [← add_assoc, SR_peel j (a + k) b F G (by omega) hG (by omega), ih, pow_succ, C_mul]
    ring

theorem SR_one_zero (j : ℕ) (F G : R[X]) : SR j 1 0 F G = G := by
  unfold SR
  rw [dp_cast j (show 1 = 1 + 0 from rfl), dp_one]
  have : Fin.cast (show 1 = 1 + 0 from rfl) 0 =
      finSumFinEquiv (Sum.inl (0 : Fin 1) : Fin 1 ⊕ Fin 0) := by ext; simp
  simp only [Function.comp_apply, this, Equiv.symm_apply_apply, rows, Sum.elim_inl]
  simp

theorem SR_zero_one (j : ℕ) (F G : R[X]) : SR j 0 1 F G = F := by
  unfold SR
  rw [dp_cast j (show 1 = 0 + 1 from rfl), dp_one]
  have : Fin.cast (show 1 = 0 + 1 from rfl) 0 =
      finSumFinEquiv (Sum.inr (0 : Fin 1) : Fin 0 ⊕ Fin 1) := by ext; simp
  simp only [Function.comp_apply, this, Equiv.symm_apply_apply, rows, Sum.elim_inr]
  simp

/-- the `j`-th subresultant -/
noncomputable def S (j : ℕ) (u v : R[X]) : R[X] := SR j (u.natDegree - j) (v.natDegree - j) u v

/-- the top subresultant: `S_n(u, v) = lc(v)^(δ-1) v` -/
theorem S_top (u v : R[X]) (h : v.natDegree < u.natDegree) :
    S v.natDegree u v = C (v.leadingCoeff ^ (u.natDegree - v.natDegree - 1)) * v := by
  unfold S
  obtain ⟨k, hk⟩ : ∃ k, u.natDegree - v.natDegree = 1 + k := ⟨u.natDegree - v.natDegree - 1, by omega⟩
  rw [hk, Nat.sub_self, SR_peel_many _ 1 0 k u v (by omega) (by omega) (Or.inl rfl), SR_one_zero]
  simp [-coeff_natDegree, leadingCoeff]

variable [IsDomain R]

/-- the next subresultant is the pseudo-remainder -/
theorem S_pred (u v q r : R[X]) (hv : 1 ≤ v.natDegree) (h : v.natDegree ≤ u.natDegree)
    (hr : r.natDegree < v.natDegree) (hq : q.natDegree ≤ u.natDegree - v.natDegree)
    (hid : C (v.leadingCoeff ^ (u.natDegree + 1 - v.natDegree)) * u = q * v + r) :
    S (v.natDegree - 1) u v = r := by
  have hv0 : v ≠ 0 := by rintro rfl; simp at hv
  have hl : v.leadingCoeff ≠ 0 := leadingCoeff_ne_zero.mpr hv0
  unfold S
  have h1 : v.natDegree - (v.natDegree - 1) = 1 := by omega
  have h2 : u.natDegree - (v.natDegree - 1) = 0 + (u.natDegree + 1 - v.natDegree) := by omega
  rw [h1, h2]
  have hro := SR_rowop (v.natDegree - 1) (0 + (u.natDegree + 1 - v.natDegree)) 1 u v r q _ 1
    (by rw [hid]; simp) (Or.inr (by omega))
  rw [SR_peel_many (v.natDegree - 1) 0 1 _ r v (by omega) (by omega) (Or.inr (by omega)),
    SR_zero_one] at hro
  have h3 : v.natDegree - 1 + 1 = v.natDegree := by omega
  rw [h3] at hro
  simp only [pow_one, C_1, one_mul] at hro
  exact mul_left_cancel₀ (by simpa using pow_ne_zero _ hl) hro

/-- the fundamental relation between consecutive pairs of the sequence -/
theorem S_step (u v w q : R[X]) (c β : R) (j : ℕ) (h : v.natDegree ≤ u.natDegree)
    (hw : w.natDegree < v.natDegree) (hj : j ≤ w.natDegree)
    (hq : q.natDegree ≤ u.natDegree - v.natDegree)
    (hid : C c * u = q * v + C β * w) :
    SignEq (C (c ^ (v.natDegree - j)) * S j u v)
      (C (β ^ (v.natDegree - j) * v.leadingCoeff ^ (u.natDegree - w.natDegree)) * S j v w) := by
  unfold S
  rw [SR_rowop j _ _ u v w q c β hid (Or.inr (by omega))]
  have h2 : u.natDegree - j = (w.natDegree - j) + (u.natDegree - w.natDegree) := by omega
  rw [h2, SR_peel_many j _ _ _ w v (by omega) (by omega) (Or.inr (by omega))]
  have h3 : j + (v.natDegree - j) = v.natDegree := by omega
  rw [h3, C_mul, mul_assoc, ← leadingCoeff]
  exact ((SR_flip j _ _ w v).mul_left _).mul_left _

/-- the invariant of the subresultant remainder sequence of `F`, `G` at the pair `u`, `v` -/
structure Inv (F G u v : R[X]) (ψ : R) : Prop where
  psi : ψ ≠ 0
  u0 : u ≠ 0
  v0 : v ≠ 0
  lt : v.natDegree < u.natDegree
  main : ∀ j ≤ v.natDegree, SignEq
    (C (ψ ^ (u.natDegree - v.natDegree - 1) * (u.leadingCoeff * ψ) ^ (v.natDegree - j)) * S j F G)
    (S j u v)

theorem inv_first (u v w q : R[X]) (c β ψ' : R) (hv : v ≠ 0) (h : v.natDegree ≤ u.natDegree)
    (hw0 : w ≠ 0) (hw : w.natDegree < v.natDegree)
    (hq : q.natDegree ≤ u.natDegree - v.natDegree)
    (hc : c = v.leadingCoeff ^ (u.natDegree + 1 - v.natDegree))
    (hid : C c * u = q * v + C β * w) (hβ : SignEq β 1)
    (hψ : SignEq ψ' (v.leadingCoeff ^ (u.natDegree - v.natDegree))) :
    Inv u v v w ψ' := by
  have hl : v.leadingCoeff ≠ 0 := leadingCoeff_ne_zero.mpr hv
  have hψ0 : ψ' ≠ 0 := by
    rcases hψ with h | h <;> rw [h]
    · exact pow_ne_zero _ hl
    · exact neg_ne_zero.mpr (pow_ne_zero _ hl)
  refine ⟨hψ0, hv, hw0, hw, ?_⟩
  intro j hj
  have hs := S_step u v w q c β j h hw hj hq hid
  set l := v.leadingCoeff
  obtain ⟨δ, hδ⟩ : ∃ δ, u.natDegree = v.natDegree + δ := ⟨_, (Nat.add_sub_cancel' h).symm⟩
  obtain ⟨d, hd⟩ : ∃ d, v.natDegree = w.natDegree + d + 1 := ⟨v.natDegree - w.natDegree - 1, by omega⟩
  obtain ⟨e, he⟩ : ∃ e, w.natDegree = j + e := ⟨w.natDegree - j, by omega⟩
  have e1 : u.natDegree + 1 - v.natDegree = δ + 1 := by omega
  have e2 : v.natDegree - j = d + 1 + e := by omega
  have e3 : u.natDegree - w.natDegree = δ + (d + 1) := by omega
  have e4 : v.natDegree - w.natDegree - 1 = d := by omega
  have e5 : w.natDegree - j = e := by omega
  have e6 : u.natDegree - v.natDegree = δ := by omega
  rw [e1] at hc
  rw [e2, e3, hc] at hs
  rw [e6] at hψ
  rw [e4, e5]
  have k0 : (C (l ^ (d + 1) * ψ') : R[X]) ≠ 0 := by
    simpa using ⟨by simpa using hl, hψ0⟩
  refine SignEq.cancel k0 ?_
  have ka : SignEq (C (l ^ (d + 1) * ψ') * (C (ψ' ^ d * (l * ψ') ^ e) * S j u v))
      (C ((l ^ (δ + 1)) ^ (d + 1 + e)) * S j u v) := by
    have := ((hψ.pow (d + 1 + e)).mul_left (l ^ (d + 1 + e))).map C |>.mul (SignEq.refl (S j u v))
    refine this.congr ?_ ?_
    · simp only [C_mul, C_pow]; ring
    · simp only [C_mul, C_pow]; ring
  refine ka.trans (hs.trans ?_)
  have := ((hβ.pow (d + 1 + e)).mul ((hψ.symm).mul_left (l ^ (d + 1)))).map C |>.mul
    (SignEq.refl (S j v w))
  refine this.congr ?_ ?_
  · simp only [C_mul, C_pow]; ring
  · simp only [C_mul, C_pow, C_1, one_pow]; ring

theorem Inv.step {F G u v w q : R[X]} {ψ c β ψ' : R} (hi : Inv F G u v ψ)
    (hw0 : w ≠ 0) (hw : w.natDegree < v.natDegree)
    (hq : q.natDegree ≤ u.natDegree - v.natDegree)
    (hc : c = v.leadingCoeff ^ (u.natDegree + 1 - v.natDegree))
    (hid : C c * u = q * v + C β * w)
    (hβ : SignEq β (u.leadingCoeff * ψ ^ (u.natDegree - v.natDegree)))
    (hψ : SignEq (ψ' * ψ ^ (u.natDegree - v.natDegree - 1))
      (v.leadingCoeff ^ (u.natDegree - v.natDegree))) :
    Inv F G v w ψ' := by
  have hl : v.leadingCoeff ≠ 0 := leadingCoeff_ne_zero.mpr hi.v0
  have hu : u.leadingCoeff ≠ 0 := leadingCoeff_ne_zero.mpr hi.u0
  have hψp := hi.psi
  have hψ0 : ψ' ≠ 0 := by
    rintro rfl
    rw [zero_mul] at hψ
    rcases hψ with h | h
    · exact pow_ne_zero _ hl h.symm
    · exact neg_ne_zero.mpr (pow_ne_zero _ hl) h.symm
  refine ⟨hψ0, hi.v0, hw0, hw, ?_⟩
  intro j hj
  have hlt := hi.lt
  have hs := S_step u v w q c β j hlt.le hw hj hq hid
  have hm := hi.main j (by omega)
  set l := v.leadingCoeff
  set a := u.leadingCoeff
  obtain ⟨δ, hδ⟩ : ∃ δ, u.natDegree = v.natDegree + (δ + 1) :=
    ⟨u.natDegree - v.natDegree - 1, by omega⟩
  obtain ⟨d, hd⟩ : ∃ d, v.natDegree = w.natDegree + d + 1 := ⟨v.natDegree - w.natDegree - 1, by omega⟩
  obtain ⟨e, he⟩ : ∃ e, w.natDegree = j + e := ⟨w.natDegree - j, by omega⟩
  have e1 : u.natDegree + 1 - v.natDegree = δ + 1 + 1 := by omega
  have e2 : v.natDegree - j = d + 1 + e := by omega
  have e3 : u.natDegree - w.natDegree = δ + 1 + (d + 1) := by omega
  have e4 : v.natDegree - w.natDegree - 1 = d := by omega
  have e5 : w.natDegree - j = e := by omega
  have e6 : u.natDegree - v.natDegree - 1 = δ := by omega
  have e7 : u.natDegree - v.natDegree = δ + 1 := by omega
  rw [e1] at hc
  rw [e2, e3, hc] at hs
  rw [e6, e7] at hψ
  rw [e7] at hβ
  rw [e6, e2] at hm
  rw [e4, e5]
  -- abbreviations: f = d + 1 + e
  have k0 : (C (l ^ (d + 1) * ψ' * ψ ^ δ * (a * ψ) ^ (d + 1 + e) * ψ ^ (δ * (d + 1 + e))) : R[X]) ≠ 0 := by
    rw [Ne, C_eq_zero]
    exact mul_ne_zero (mul_ne_zero (mul_ne_zero (mul_ne_zero (pow_ne_zero _ hl) hψ0)
      (pow_ne_zero _ hψp)) (pow_ne_zero _ (mul_ne_zero hu hψp))) (pow_ne_zero _ hψp)
  refine SignEq.cancel k0 ?_
  -- left side equals `C ((l^(δ+2))^f) * (hm's left side)`
  have ka : SignEq
      (C (l ^ (d + 1) * ψ' * ψ ^ δ * (a * ψ) ^ (d + 1 + e) * ψ ^ (δ * (d + 1 + e))) *
        (C (ψ' ^ d * (l * ψ') ^ e) * S j F G))
      (C ((l ^ (δ + 1 + 1)) ^ (d + 1 + e)) * (C (ψ ^ δ * (a * ψ) ^ (d + 1 + e)) * S j F G)) := by
    have := ((hψ.pow (d + 1 + e)).mul_left (l ^ (d + 1 + e) * (ψ ^ δ * (a * ψ) ^ (d + 1 + e)))).map C
      |>.mul (SignEq.refl (S j F G))
    refine this.congr ?_ ?_
    · simp only [C_mul, C_pow]; ring
    · simp only [C_mul, C_pow]; ring
  refine ka.trans ((hm.mul_left _).trans (hs.trans ?_))
  have := ((hβ.pow (d + 1 + e)).mul ((hψ.symm).mul_left (l ^ (d + 1)))).map C |>.mul
    (SignEq.refl (S j v w))
  refine this.congr ?_ ?_
  · simp only [C_mul, C_pow]; ring
  · simp only [C_mul, C_pow]; ring

/-- the pseudo-remainder is divisible by `β` -/
theorem Inv.dvd_rem {F G u v q r : R[X]} {ψ β : R} (hi : Inv F G u v ψ) (hv : 1 ≤ v.natDegree)
    (hr : r.natDegree < v.natDegree) (hq : q.natDegree ≤ u.natDegree - v.natDegree)
    (hid : C (v.leadingCoeff ^ (u.natDegree + 1 - v.natDegree)) * u = q * v + r)
    (hβ : SignEq β (u.leadingCoeff * ψ ^ (u.natDegree - v.natDegree))) :
    ∃ w : R[X], r = C β * w := by
  have hm := hi.main (v.natDegree - 1) (by omega)
  rw [S_pred u v q r hv hi.lt.le hr hq hid] at hm
  have hlt := hi.lt
  have e1 : v.natDegree - (v.natDegree - 1) = 1 := by omega
  obtain ⟨δ, hδ⟩ : ∃ δ, u.natDegree - v.natDegree = δ + 1 := ⟨u.natDegree - v.natDegree - 1, by omega⟩
  rw [e1, hδ] at hm
  rw [hδ] at hβ
  have h2 : SignEq (C β * S (v.natDegree - 1) F G) r := by
    refine ((hβ.map C).mul (SignEq.refl _)).trans (SignEq.trans (Or.inl ?_) hm)
    congr 1
    simp only [Nat.add_sub_cancel, pow_one]
    congr 1
    ring
  rcases h2.symm with h | h
  · exact ⟨_, h⟩
  · exact ⟨-S (v.natDegree - 1) F G, by rw [h]; ring⟩

/-- the next `ψ` exists -/
theorem Inv.dvd_psi {F G u v : R[X]} {ψ : R} (hi : Inv F G u v ψ) :
    ψ ^ (u.natDegree - v.natDegree - 1) ∣ v.leadingCoeff ^ (u.natDegree - v.natDegree) := by
  have hm := hi.main v.natDegree le_rfl
  rw [S_top u v hi.lt, Nat.sub_self, pow_zero, mul_one] at hm
  have hlt := hi.lt
  obtain ⟨δ, hδ⟩ : ∃ δ, u.natDegree - v.natDegree = δ + 1 := ⟨u.natDegree - v.natDegree - 1, by omega⟩
  rw [hδ] at hm ⊢
  simp only [Nat.add_sub_cancel] at hm ⊢
  rcases hm with h | h
  · have := congrArg (fun p => coeff p v.natDegree) h
    simp only [coeff_C_mul] at this
    exact ⟨_, by rw [this, pow_succ]; rfl⟩
  · have := congrArg (fun p => coeff p v.natDegree) h
    simp only [coeff_C_mul, coeff_neg] at this
    exact ⟨-(S v.natDegree F G).coeff v.natDegree, by
      rw [mul_neg, this, neg_neg, pow_succ]; rfl⟩

/-! ### the resultant recursion -/

theorem resultant_step (u v w q : R[X]) (c β : R)
    (hw : w.natDegree < v.natDegree) (h : v.natDegree ≤ u.natDegree)
    (hq : q.natDegree ≤ u.natDegree - v.natDegree)
    (hid : C c * u = q * v + C β * w) :
    c ^ v.natDegree * resultant u v =
      (-1) ^ (u.natDegree * v.natDegree) * β ^ v.natDegree *
        v.leadingCoeff ^ (u.natDegree - w.natDegree) * resultant v w := by
  set m := u.natDegree
  set n := v.natDegree
  have h1 : resultant (C c * u) v m n = c ^ n * resultant u v m n := resultant_C_mul_left ..
  have h2 : resultant (C c * u) v m n = resultant (C β * w) v m n := by
    rw [hid, show q * v + C β * w = C β * w + v * q by ring]
    exact resultant_add_mul_left _ _ _ _ _ (by omega) le_rfl
  have h3 : resultant (C β * w) v m n = β ^ n * resultant w v m n := resultant_C_mul_left ..
  obtain ⟨k, hk⟩ : ∃ k, m = w.natDegree + k := ⟨m - w.natDegree, by omega⟩
  have h4 : resultant w v m n =
      (-1) ^ (n * k) * v.coeff n ^ k * resultant w v w.natDegree n := by
    rw [hk]; exact resultant_add_left_deg _ _ _ _ _ le_rfl
  have h5 : resultant w v w.natDegree n = (-1) ^ (w.natDegree * n) * resultant v w n w.natDegree :=
    resultant_comm ..
  rw [← h1, h2, h3, h4, h5]
  have hk' : m - w.natDegree = k := by omega
  rw [hk', show v.leadingCoeff = v.coeff n from rfl, hk]
  rw [add_mul, pow_add, mul_comm n k]
  ring

end Algebraics.Subres
