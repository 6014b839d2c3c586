import Mathlib.LinearAlgebra.Matrix.Block
import Mathlib.LinearAlgebra.Matrix.ToLinearEquiv
import Verif.Lemmas.LatticeLoop

/-!
Gram determinants: the loop of `lll_reduce_with_delta` (`/repo/src/lattice.rs:112-165`) ends.
-/

namespace Algebraics

namespace Lattice

open Finset Matrix

variable {m : ℕ}

/-- the matrix of scalar products of the first `i` columns -/
def gram (b : ℕ → Fin m → ℤ) (i : ℕ) : Matrix (Fin i) (Fin i) ℤ := Matrix.of fun p q => b p ⬝ᵥ b q

theorem R_dot (b : ℕ → Fin m → ℤ) (p q : ℕ) : R b p ⬝ᵥ R b q = ((b p ⬝ᵥ b q : ℤ) : ℚ) := by
  unfold R toRat dotProduct
  push_cast
  rfl

theorem gram_det (b : ℕ → Fin m → ℤ) (i : ℕ) :
    ((gram b i).det : ℚ) = ∏ j ∈ range i, gs (R b) j ⬝ᵥ gs (R b) j := by
  let A : Matrix (Fin i) (Fin m) ℚ := Matrix.of fun p => R b p
  let G : Matrix (Fin i) (Fin m) ℚ := Matrix.of fun p => gs (R b) p
  let L : Matrix (Fin i) (Fin i) ℚ := Matrix.of fun p q =>
    if q < p then coef (R b) p q else if q = p then 1 else 0
  have h1 : A = L * G := by
    ext p y
    rw [Matrix.mul_apply]
    show R b p y = ∑ q, (if q < p then coef (R b) p q else if q = p then 1 else 0) * gs (R b) q y
    have h2 : ∀ q : Fin i, (if q < p then coef (R b) p q else if q = p then 1 else 0) * gs (R b) q y =
        (if (q : ℕ) < p then coef (R b) p q * gs (R b) q y else 0) +
          (if q = p then gs (R b) p y else 0) := by
      intro q
      by_cases hq : q < p
      · rw [if_pos hq, if_pos (by exact hq), if_neg (ne_of_lt hq), add_zero]
      · rw [if_neg hq, if_neg (show ¬ (q : ℕ) < p from hq), zero_add]
        by_cases hqp : q = p
        · rw [if_pos hqp, if_pos hqp, one_mul, hqp]
        · rw [if_neg hqp, if_neg hqp, zero_mul]
    rw [Finset.sum_congr rfl fun q _ => h2 q, Finset.sum_add_distrib, Finset.sum_ite_eq' univ p,
      if_pos (Finset.mem_univ p)]
    have h3 : ∑ q : Fin i, (if (q : ℕ) < p then coef (R b) p q * gs (R b) q y else 0) =
        ∑ q ∈ range i, (if q < (p : ℕ) then coef (R b) p q * gs (R b) q y else 0) :=
      (Finset.sum_range fun q => if q < (p : ℕ) then coef (R b) p q * gs (R b) q y else 0).symm
    rw [h3, ← Finset.sum_filter]
    have h4 : (range i).filter (fun q => q < (p : ℕ)) = range p := by
      ext q
      simp only [Finset.mem_filter, Finset.mem_range]
      have := p.2
      omega
    rw [h4]
    have h5 := congrFun (decomp (R b) p) y
    rw [h5]
    simp [Finset.sum_apply, add_comm]
  have h2 : (gram b i).map (Int.castRingHom ℚ) = A * Aᵀ := by
    ext p q
    rw [Matrix.map_apply, Matrix.mul_apply']
    exact (R_dot b p q).symm
  have h3 : G * Gᵀ = Matrix.diagonal fun p : Fin i => gs (R b) p ⬝ᵥ gs (R b) p := by
    ext p q
    rw [Matrix.mul_apply']
    by_cases hpq : p = q
    · subst hpq; rw [Matrix.diagonal_apply_eq]; rfl
    · rw [Matrix.diagonal_apply_ne _ hpq]
      exact gs_orth (R b) p q fun h => hpq (Fin.ext h)
  have h4 : L.det = 1 := by
    rw [Matrix.det_of_isLowerTriangular L]
    · refine Finset.prod_eq_one fun p _ => ?_
      show (if p < p then _ else if p = p then (1 : ℚ) else 0) = 1
      rw [if_neg (lt_irrefl _), if_pos rfl]
    · intro p q hpq
      have hpq : p < q := hpq
      show (if q < p then _ else if q = p then (1 : ℚ) else 0) = 0
      rw [if_neg (not_lt.mpr hpq.le), if_neg (ne_of_gt hpq)]
  have h5 : ((gram b i).det : ℚ) = ((gram b i).map (Int.castRingHom ℚ)).det := by
    have := RingHom.map_det (Int.castRingHom ℚ) (gram b i)
    rw [RingHom.mapMatrix_apply] at this
    rw [← this]; rfl
  rw [h5, h2, h1, Matrix.transpose_mul, Matrix.mul_assoc, Matrix.det_mul, ← Matrix.mul_assoc,
    Matrix.det_mul, Matrix.det_transpose, h4, h3, Matrix.det_diagonal, one_mul, mul_one,
    Finset.prod_range fun j => gs (R b) j ⬝ᵥ gs (R b) j]

/-- the square of the volume spanned by the first `i` columns -/
def vol (b : ℕ → Fin m → ℤ) (i : ℕ) : ℚ := ∏ j ∈ range i, gs (R b) j ⬝ᵥ gs (R b) j

theorem dot_self_nonneg (v : Fin m → ℚ) : 0 ≤ v ⬝ᵥ v :=
  Finset.sum_nonneg fun _ _ => mul_self_nonneg _

theorem vol_nonneg (b : ℕ → Fin m → ℤ) (i : ℕ) : 0 ≤ vol b i :=
  Finset.prod_nonneg fun _ _ => dot_self_nonneg _

theorem vol_natAbs (b : ℕ → Fin m → ℤ) (i : ℕ) : ((gram b i).det.natAbs : ℚ) = vol b i := by
  have h : (0 : ℚ) ≤ ((gram b i).det : ℚ) := by rw [gram_det]; exact vol_nonneg b i
  rw [Nat.cast_natAbs, abs_of_nonneg (by exact_mod_cast h)]
  exact gram_det b i

theorem SameUpTo.vol_eq {k : ℕ} {b b' : ℕ → Fin m → ℤ} (h : SameUpTo k b b') (i : ℕ) :
    vol b' i = vol b i :=
  Finset.prod_congr rfl fun j _ => by rw [h.gs_eq]

theorem vol_congr (b b' : ℕ → Fin m → ℤ) (i : ℕ) (h : ∀ j < i, b' j = b j) : vol b' i = vol b i := by
  refine Finset.prod_congr rfl fun j hj => ?_
  have hj := Finset.mem_range.mp hj
  rw [gs_congr (R b') (R b) j fun l hl => by unfold R; rw [h l (by omega)]]

theorem vol_swapped_large (b : ℕ → Fin m → ℤ) (k i : ℕ) (hi : k + 1 < i) :
    vol (swapped b k) i = vol b i := by
  have h : gram (swapped b k) i = (gram b i).submatrix
      (Equiv.swap (⟨k, by omega⟩ : Fin i) ⟨k + 1, hi⟩) (Equiv.swap (⟨k, by omega⟩ : Fin i) ⟨k + 1, hi⟩) := by
    have key : ∀ p : Fin i, swapped b k p =
        b ((Equiv.swap (⟨k, by omega⟩ : Fin i) ⟨k + 1, hi⟩ p : Fin i) : ℕ) := by
      intro p
      unfold swapped
      by_cases h1 : p = ⟨k, by omega⟩
      · subst h1
        rw [Equiv.swap_apply_left]; exact Function.update_self _ _ _
      · by_cases h2 : p = ⟨k + 1, hi⟩
        · subst h2
          rw [Equiv.swap_apply_right, Function.update_of_ne (by simp), Function.update_self]
        · rw [Equiv.swap_apply_of_ne_of_ne h1 h2, Function.update_of_ne fun h => h1 (Fin.ext h),
            Function.update_of_ne fun h => h2 (Fin.ext h)]
    ext p q
    rw [Matrix.submatrix_apply]
    show swapped b k p ⬝ᵥ swapped b k q = _
    rw [key p, key q]
    rfl
  have h1 := gram_det (swapped b k) i
  rw [h, Matrix.det_submatrix_equiv_self, gram_det b i] at h1
  exact h1.symm

theorem vol_swapped_small (b : ℕ → Fin m → ℤ) (k i : ℕ) (hi : i ≤ k) :
    vol (swapped b k) i = vol b i := by
  refine vol_congr _ _ _ fun j hj => ?_
  unfold swapped
  rw [Function.update_of_ne (by omega), Function.update_of_ne (by omega)]

theorem R_swapped (b : ℕ → Fin m → ℤ) (k : ℕ) :
    R (swapped b k) = Function.update (Function.update (R b) (k + 1) (R b k)) k (R b (k + 1)) := by
  funext i
  unfold R swapped
  by_cases h : i = k
  · subst h; rw [Function.update_self, Function.update_self]
  · rw [Function.update_of_ne h, Function.update_of_ne h]
    by_cases h : i = k + 1
    · subst h; rw [Function.update_self, Function.update_self]
    · rw [Function.update_of_ne h, Function.update_of_ne h]

theorem vol_swapped (b : ℕ → Fin m → ℤ) (k : ℕ) (δ : ℚ) (hδ : δ ≤ 1) (hl : ¬ Lovasz δ (R b) k)
    (hg : ∀ j < k + 1, gs (R b) j ⬝ᵥ gs (R b) j ≠ 0) :
    vol (swapped b k) (k + 1) < vol b (k + 1) := by
  have h0 : vol (swapped b k) k = vol b k := vol_swapped_small b k k le_rfl
  unfold vol at h0 ⊢
  rw [Finset.prod_range_succ, Finset.prod_range_succ, h0, R_swapped, gs_swap]
  refine mul_lt_mul_of_pos_left ?_ ?_
  · unfold Lovasz at hl
    push Not at hl
    have h1 : (gs (R b) (k + 1) + coef (R b) (k + 1) k • gs (R b) k) ⬝ᵥ
        (gs (R b) (k + 1) + coef (R b) (k + 1) k • gs (R b) k) =
        gs (R b) (k + 1) ⬝ᵥ gs (R b) (k + 1) + coef (R b) (k + 1) k ^ 2 * (gs (R b) k ⬝ᵥ gs (R b) k) := by
      rw [add_dotProduct, dotProduct_add, dotProduct_add, smul_dotProduct, dotProduct_smul,
        smul_dotProduct, dotProduct_smul, gs_orth (R b) (k + 1) k (by omega),
        gs_orth (R b) k (k + 1) (by omega)]
      simp only [smul_eq_mul]
      ring
    rw [h1]
    have := mul_le_mul_of_nonneg_right hδ (dot_self_nonneg (gs (R b) k))
    nlinarith
  · refine Finset.prod_pos fun j hj => ?_
    have hj := Finset.mem_range.mp hj
    exact lt_of_le_of_ne (dot_self_nonneg _) (hg j (by omega)).symm

/-- the potential: a natural number -/
def pot (n : ℕ) (b : ℕ → Fin m → ℤ) : ℕ := ∑ i ∈ range n, (gram b i).det.natAbs

theorem pot_congr (n : ℕ) (b b' : ℕ → Fin m → ℤ) (h : ∀ i, vol b' i = vol b i) : pot n b' = pot n b := by
  refine Finset.sum_congr rfl fun i _ => ?_
  have := h i
  rw [← vol_natAbs, ← vol_natAbs] at this
  exact_mod_cast this

theorem pot_swapped (n : ℕ) (b : ℕ → Fin m → ℤ) (k : ℕ) (hk : k + 1 < n) (δ : ℚ) (hδ : δ ≤ 1)
    (hl : ¬ Lovasz δ (R b) k) (hg : ∀ j < k + 1, gs (R b) j ⬝ᵥ gs (R b) j ≠ 0) :
    pot n (swapped b k) < pot n b := by
  have hlt : (gram (swapped b k) (k + 1)).det.natAbs < (gram b (k + 1)).det.natAbs := by
    have := vol_swapped b k δ hδ hl hg
    rw [← vol_natAbs, ← vol_natAbs] at this
    exact_mod_cast this
  refine Finset.sum_lt_sum (fun i _ => ?_) ⟨k + 1, Finset.mem_range.mpr hk, hlt⟩
  by_cases h1 : i = k + 1
  · rw [h1]; exact hlt.le
  · have h2 : vol (swapped b k) i = vol b i := by
      rcases Nat.lt_or_ge i (k + 1) with h | h
      · exact vol_swapped_small b k i (by omega)
      · exact vol_swapped_large b k i (by omega)
    rw [← vol_natAbs, ← vol_natAbs] at h2
    exact le_of_eq (by exact_mod_cast h2)

/-- with enough fuel, the loop does not run out of it -/
theorem loop_ends (n : ℕ) (δ : ℚ) (hδ : δ ≤ 1) : ∀ (D d k : ℕ) (s : State m), s.Good → 1 ≤ k →
    pot n s.basis = D → n - k = d →
    ∃ N, ∀ fuel, N ≤ fuel → loop n δ fuel k s ≠ .error .fuel := by
  intro D
  induction D using Nat.strong_induction_on with
  | _ D ihD =>
    intro d
    induction d using Nat.strong_induction_on with
    | _ d ihd =>
      intro k s hs hk hD hd
      by_cases hkn : k < n
      · obtain ⟨k, rfl⟩ : ∃ l, k = l + 1 := ⟨k - 1, by omega⟩
        rcases step_spec δ k s hs with ⟨-, h2⟩ | ⟨h1, b, u, h2, h3, h4, h5⟩
        · refine ⟨1, fun fuel hf => ?_⟩
          obtain ⟨fuel, rfl⟩ : ∃ l, fuel = l + 1 := ⟨fuel - 1, by omega⟩
          unfold loop
          rw [if_pos hkn, h2]
          simp
        · have hpot : pot n b = pot n s.basis := pot_congr n _ _ fun i => h2.vol_eq i
          have key : ∃ k' N, step δ (k + 1) s = some (k', u) ∧
              ∀ fuel, N ≤ fuel → loop n δ fuel k' u ≠ .error .fuel := by
            rcases h5 with ⟨h6, h7, h8⟩ | ⟨h6, h7, h8⟩
            · obtain ⟨N, hN⟩ := ihd (n - (k + 2)) (by omega) (k + 2) u h4 (by omega)
                (by rw [h7, hpot, hD]) rfl
              exact ⟨_, N, h8, hN⟩
            · have hlt : pot n u.basis < D := by
                rw [h7, ← hD, ← hpot]
                refine pot_swapped n b k hkn δ hδ h6 fun j hj => ?_
                rw [h2.gs_eq]; exact h1 j hj
              obtain ⟨N, hN⟩ := ihD _ hlt _ (max 1 k) u h4 (le_max_left _ _) rfl rfl
              exact ⟨_, N, h8, hN⟩
          obtain ⟨k', N, h8, hN⟩ := key
          refine ⟨N + 1, fun fuel hf => ?_⟩
          obtain ⟨fuel, rfl⟩ : ∃ l, fuel = l + 1 := ⟨fuel - 1, by omega⟩
          unfold loop
          rw [if_pos hkn, h8]
          exact hN fuel (by omega)
      · refine ⟨1, fun fuel hf => ?_⟩
        obtain ⟨fuel, rfl⟩ : ∃ l, fuel = l + 1 := ⟨fuel - 1, by omega⟩
        unfold loop
        rw [if_neg hkn]
        simp

/-- one turn keeps the volume of the lattice -/
theorem step_vol (n : ℕ) (δ : ℚ) (k : ℕ) (s : State m) (hs : s.Good) (hk : k + 1 < n)
    (k' : ℕ) (t : State m) (h : step δ (k + 1) s = some (k', t)) : vol t.basis n = vol s.basis n := by
  rcases step_spec δ k s hs with ⟨-, h2⟩ | ⟨h1, b, u, h2, h3, h4, h5⟩
  · rw [h] at h2; cases h2
  · rcases h5 with ⟨h6, h7, h8⟩ | ⟨h6, h7, h8⟩
    · rw [h] at h8
      cases h8
      rw [h7, h2.vol_eq]
    · rw [h] at h8
      cases h8
      rw [h7, vol_swapped_large b k n hk, h2.vol_eq]

theorem vol_ne_zero (b : ℕ → Fin m → ℤ) (n : ℕ) :
    vol b n ≠ 0 ↔ ∀ j < n, gs (R b) j ⬝ᵥ gs (R b) j ≠ 0 := by
  unfold vol
  rw [Finset.prod_ne_zero_iff]
  simp only [Finset.mem_range]

/-- no panic when the volume is not zero -/
theorem loop_no_panic (n : ℕ) (δ : ℚ) : ∀ (fuel k : ℕ) (s : State m), s.Good → 1 ≤ k →
    RedBelow δ s.basis k → vol s.basis n ≠ 0 → loop n δ fuel k s ≠ .error .panic := by
  intro fuel
  induction fuel with
  | zero => intro k s _ _ _ _ h; simp [loop] at h
  | succ fuel ih =>
    intro k s hs hk hr hv h
    unfold loop at h
    by_cases hkn : k < n
    · rw [if_pos hkn] at h
      obtain ⟨k, rfl⟩ : ∃ l, k = l + 1 := ⟨k - 1, by omega⟩
      cases hst : step δ (k + 1) s with
      | none =>
        rcases step_spec δ k s hs with ⟨⟨j, hj, h1⟩, -⟩ | ⟨-, b, u, -, -, -, h5⟩
        · exact (vol_ne_zero _ _).mp hv j (by omega) h1
        · rcases h5 with ⟨-, -, h8⟩ | ⟨-, -, h8⟩ <;> rw [hst] at h8 <;> cases h8
      | some r =>
        obtain ⟨k', u⟩ := r
        rw [hst] at h
        obtain ⟨h1, h2, h3, -, h5⟩ := step_inv n δ k s hs hkn hr k' u hst
        exact ih k' u h1 h3 h5 (by rw [step_vol n δ k s hs hkn k' u hst]; exact hv) h
    · rw [if_neg hkn] at h
      cases h

/-- the loop does not return when the volume is zero -/
theorem loop_vol_zero (n : ℕ) (δ : ℚ) (hδ : 1 / 4 < δ) : ∀ (fuel k : ℕ) (s t : State m), s.Good → 1 ≤ k →
    RedBelow δ s.basis k → (k < n ∨ vol s.basis n ≠ 0) → loop n δ fuel k s = .ok t →
    vol s.basis n ≠ 0 := by
  intro fuel
  induction fuel with
  | zero => intro k s t _ _ _ _ h; simp [loop] at h
  | succ fuel ih =>
    intro k s t hs hk hr hv h
    unfold loop at h
    by_cases hkn : k < n
    · rw [if_pos hkn] at h
      obtain ⟨k, rfl⟩ : ∃ l, k = l + 1 := ⟨k - 1, by omega⟩
      cases hst : step δ (k + 1) s with
      | none => rw [hst] at h; cases h
      | some r =>
        obtain ⟨k', u⟩ := r
        rw [hst] at h
        obtain ⟨h1, h2, h3, h4, h5⟩ := step_inv n δ k s hs hkn hr k' u hst
        rw [← step_vol n δ k s hs hkn k' u hst]
        refine ih k' u t h1 h3 h5 ?_ h
        rcases Nat.lt_or_ge k' n with hk' | hk'
        · exact Or.inl hk'
        · right
          rcases step_spec δ k s hs with ⟨-, h6⟩ | ⟨h6, b, w, h7, h8, h9, h10⟩
          · rw [hst] at h6; cases h6
          · rcases h10 with ⟨h10, h11, h12⟩ | ⟨-, -, h12⟩
            · rw [hst] at h12
              cases h12
              rw [h11]
              rw [vol_ne_zero]
              intro j hj
              rcases Nat.lt_or_ge j (k + 1) with hjk | hjk
              · rw [h7.gs_eq]; exact h6 j hjk
              · have hjk : j = k + 1 := by omega
                subst hjk
                unfold Lovasz at h10
                have h13 := h8 k (by omega)
                have h14 : 0 < gs (R b) k ⬝ᵥ gs (R b) k := by
                  refine lt_of_le_of_ne (dot_self_nonneg _) ?_
                  rw [h7.gs_eq]; exact (h6 k (by omega)).symm
                have h15 : coef (R b) (k + 1) k ^ 2 ≤ 1 / 4 := by
                  rw [← sq_abs]
                  have := abs_nonneg (coef (R b) (k + 1) k)
                  nlinarith
                have h16 : 0 < (δ - coef (R b) (k + 1) k ^ 2) * (gs (R b) k ⬝ᵥ gs (R b) k) :=
                  mul_pos (by linarith) h14
                linarith
            · rw [hst] at h12
              cases h12
              rw [ge_iff_le, le_max_iff] at hk'
              omega
    · exact hv.resolve_left hkn

/-- the columns are independent when the volume is not zero -/
theorem independent_iff (b : ℕ → Fin m → ℤ) (n : ℕ) : Independent n b ↔ vol b n ≠ 0 := by
  have hvol : vol b n ≠ 0 ↔ (gram b n).det ≠ 0 := by
    rw [← vol_natAbs]; simp
  have hmul : ∀ (v : Fin n → ℤ) (q : Fin n), (v ᵥ* gram b n) q = (∑ p, v p • b p) ⬝ᵥ b q := by
    intro v q
    rw [sum_dotProduct]
    show ∑ p, v p * (b p ⬝ᵥ b q) = _
    refine Finset.sum_congr rfl fun p _ => ?_
    rw [smul_dotProduct]
    rfl
  rw [hvol]
  unfold Independent
  rw [Fintype.linearIndependent_iff]
  constructor
  · intro h hdet
    obtain ⟨v, hv, h1⟩ := Matrix.exists_vecMul_eq_zero_iff.mpr hdet
    refine hv (funext fun i => h v ?_ i)
    have h2 : (∑ p, v p • b p) ⬝ᵥ (∑ p, v p • b p) = 0 := by
      rw [dotProduct_sum]
      refine Finset.sum_eq_zero fun q _ => ?_
      rw [dotProduct_smul, ← hmul v q, h1]
      simp
    exact dotProduct_self_eq_zero.mp h2
  · intro hdet v hv i
    have : v = 0 := by
      refine Matrix.eq_zero_of_vecMul_eq_zero hdet (funext fun q => ?_)
      rw [hmul, hv, zero_dotProduct]
      rfl
    rw [this]; rfl

end Lattice

end Algebraics
