import Verif.Model.Lattice
import Verif.Spec.Lattice
import Mathlib.Algebra.BigOperators.Fin
import Mathlib.Algebra.Order.Ring.Rat
import Mathlib.LinearAlgebra.Matrix.DotProduct
import Mathlib.Tactic.Linarith
import Mathlib.Tactic.Ring
import Mathlib.Tactic.FieldSimp

/-!
Gram-Schmidt orthogonalization and the loops of `/repo/src/lattice.rs`.
-/

namespace Algebraics

namespace Lattice

open Finset

variable {m : ℕ}

theorem inner_eq {α : Type} [NonUnitalNonAssocSemiring α] (a b : Fin m → α) : inner a b = a ⬝ᵥ b := by
  have key : ∀ (l : List (Fin m)) (v : α), l.foldl (innerStep a b) (some v) =
      some (v + (l.map fun y => a y * b y).sum) := by
    intro l
    induction l with
    | nil => intro v; simp
    | cons y l ih => intro v; rw [List.foldl_cons, innerStep, ih]; simp [add_assoc]
  have h2 : a ⬝ᵥ b = ((List.finRange m).map fun y => a y * b y).sum := by
    unfold dotProduct
    rw [← List.ofFn_eq_map, List.sum_ofFn]
  unfold inner
  rw [h2]
  cases List.finRange m with
  | nil => simp
  | cons y l => rw [List.foldl_cons, innerStep, key]; simp

/-! ## Gram-Schmidt -/

/-- the orthogonalization, by its recursion -/
def gs (b : ℕ → Fin m → ℚ) (i : ℕ) : Fin m → ℚ :=
  b i - ∑ j : Fin i, (b i ⬝ᵥ gs b j / (gs b j ⬝ᵥ gs b j)) • gs b j
termination_by i
decreasing_by all_goals exact j.2

/-- the coefficients of the orthogonalization -/
def coef (b : ℕ → Fin m → ℚ) (i j : ℕ) : ℚ := b i ⬝ᵥ gs b j / (gs b j ⬝ᵥ gs b j)

theorem gs_eq (b : ℕ → Fin m → ℚ) (i : ℕ) :
    gs b i = b i - ∑ j ∈ range i, coef b i j • gs b j := by
  rw [gs, Finset.sum_range]
  rfl

theorem gs_congr (b b' : ℕ → Fin m → ℚ) (i : ℕ) (h : ∀ j ≤ i, b j = b' j) : gs b i = gs b' i := by
  induction i using Nat.strong_induction_on with
  | _ i ih =>
    rw [gs_eq, gs_eq, h i le_rfl]
    congr 1
    refine Finset.sum_congr rfl fun j hj => ?_
    have hj := Finset.mem_range.mp hj
    have := ih j hj fun l hl => h l (by omega)
    unfold coef
    rw [this, h i le_rfl]

theorem coef_mul_self (b : ℕ → Fin m → ℚ) (i j : ℕ) :
    coef b i j * (gs b j ⬝ᵥ gs b j) = b i ⬝ᵥ gs b j := by
  unfold coef
  by_cases h : gs b j ⬝ᵥ gs b j = 0
  · rw [h, mul_zero, dotProduct_self_eq_zero.mp h, dotProduct_zero]
  · rw [div_mul_cancel₀ _ h]

theorem sum_dot (s : Finset ℕ) (f : ℕ → Fin m → ℚ) (v : Fin m → ℚ) :
    (∑ j ∈ s, f j) ⬝ᵥ v = ∑ j ∈ s, f j ⬝ᵥ v := by
  classical
  induction s using Finset.induction_on with
  | empty => simp
  | insert a s ha ih => rw [Finset.sum_insert ha, Finset.sum_insert ha, add_dotProduct, ih]

theorem gs_orth_lt (b : ℕ → Fin m → ℚ) : ∀ i j, j < i → gs b i ⬝ᵥ gs b j = 0 := by
  intro i
  induction i using Nat.strong_induction_on with
  | _ i ih =>
    intro j hj
    rw [gs_eq b i, sub_dotProduct, sum_dot, Finset.sum_eq_single j]
    · rw [smul_dotProduct, smul_eq_mul, coef_mul_self, sub_self]
    · intro l hl hlj
      have hl := Finset.mem_range.mp hl
      rw [smul_dotProduct, smul_eq_mul]
      rcases lt_or_gt_of_ne hlj with h | h
      · rw [dotProduct_comm, ih j hj l h, mul_zero]
      · rw [ih l hl j h, mul_zero]
    · intro h; exact absurd (Finset.mem_range.mpr hj) h

theorem gs_orth (b : ℕ → Fin m → ℚ) (i j : ℕ) (h : i ≠ j) : gs b i ⬝ᵥ gs b j = 0 := by
  rcases lt_or_gt_of_ne h with h | h
  · rw [dotProduct_comm]; exact gs_orth_lt b j i h
  · exact gs_orth_lt b i j h

theorem decomp (b : ℕ → Fin m → ℚ) (i : ℕ) :
    b i = gs b i + ∑ j ∈ range i, coef b i j • gs b j := by
  rw [gs_eq b i]; abel

/-- a column is orthogonal to the later columns of the orthogonalization -/
theorem dot_gs_later (b : ℕ → Fin m → ℚ) (i l : ℕ) (h : i < l) : b i ⬝ᵥ gs b l = 0 := by
  rw [decomp b i, add_dotProduct, gs_orth b i l (by omega), sum_dot, zero_add]
  refine Finset.sum_eq_zero fun j hj => ?_
  have hj := Finset.mem_range.mp hj
  rw [smul_dotProduct, gs_orth b j l (by omega), smul_zero]

theorem dot_gs_self (b : ℕ → Fin m → ℚ) (i : ℕ) : b i ⬝ᵥ gs b i = gs b i ⬝ᵥ gs b i := by
  nth_rw 1 [decomp b i]
  rw [add_dotProduct, sum_dot, Finset.sum_eq_zero, add_zero]
  intro j hj
  have hj := Finset.mem_range.mp hj
  rw [smul_dotProduct, gs_orth b j i (by omega), smul_zero]

theorem coef_self_smul (b : ℕ → Fin m → ℚ) (i : ℕ) : coef b i i • gs b i = gs b i := by
  unfold coef
  rw [dot_gs_self]
  by_cases h : gs b i ⬝ᵥ gs b i = 0
  · rw [dotProduct_self_eq_zero.mp h, smul_zero]
  · rw [div_self h, one_smul]

theorem coef_later (b : ℕ → Fin m → ℚ) (i l : ℕ) (h : i < l) : coef b i l = 0 := by
  unfold coef; rw [dot_gs_later b i l h, zero_div]

/-- a column in terms of the orthogonalization -/
theorem expand (b : ℕ → Fin m → ℚ) (i k : ℕ) (h : i < k) :
    b i = ∑ l ∈ range k, coef b i l • gs b l := by
  obtain ⟨d, rfl⟩ : ∃ d, k = i + 1 + d := ⟨k - i - 1, by omega⟩
  induction d with
  | zero =>
    rw [add_zero, Finset.sum_range_succ, coef_self_smul, add_comm]
    exact decomp b i
  | succ d ih =>
    rw [← add_assoc, Finset.sum_range_succ, coef_later b i (i + 1 + d) (by omega), zero_smul, add_zero]
    exact ih (by omega)

/-- subtracting a multiple of an earlier column does not change the orthogonalization -/
theorem gs_reduce (b : ℕ → Fin m → ℚ) (k j : ℕ) (hj : j < k) (r : ℚ) (i : ℕ) :
    gs (Function.update b k (b k - r • b j)) i = gs b i := by
  induction i using Nat.strong_induction_on with
  | _ i ih =>
    by_cases hik : i = k
    · subst hik
      rw [gs_eq, gs_eq b i, Function.update_self]
      have : ∀ l ∈ range i, coef (Function.update b i (b i - r • b j)) i l •
          gs (Function.update b i (b i - r • b j)) l = coef b i l • gs b l - r • (coef b j l • gs b l) := by
        intro l hl
        rw [ih l (Finset.mem_range.mp hl)]
        unfold coef
        rw [ih l (Finset.mem_range.mp hl), Function.update_self, sub_dotProduct, smul_dotProduct,
          smul_smul, ← sub_smul, smul_eq_mul]
        congr 1
        ring
      rw [Finset.sum_congr rfl this, Finset.sum_sub_distrib, ← Finset.smul_sum, ← expand b j i hj]
      abel
    · rw [gs_eq, gs_eq b i, Function.update_of_ne hik]
      congr 1
      refine Finset.sum_congr rfl fun l hl => ?_
      rw [ih l (Finset.mem_range.mp hl)]
      unfold coef
      rw [ih l (Finset.mem_range.mp hl), Function.update_of_ne hik]

theorem coef_reduce (b : ℕ → Fin m → ℚ) (k j : ℕ) (hj : j < k) (r : ℚ) (i l : ℕ) :
    coef (Function.update b k (b k - r • b j)) i l =
      if i = k then coef b k l - r * coef b j l else coef b i l := by
  unfold coef
  rw [gs_reduce b k j hj r l]
  split
  · rename_i h
    rw [h, Function.update_self, sub_dotProduct, smul_dotProduct, smul_eq_mul]
    ring
  · rename_i h
    rw [Function.update_of_ne h]

theorem coef_self (b : ℕ → Fin m → ℚ) (j : ℕ) (h : gs b j ⬝ᵥ gs b j ≠ 0) : coef b j j = 1 := by
  unfold coef; rw [dot_gs_self, div_self h]

/-- the new vector after swapping two neighbours -/
theorem gs_swap (b : ℕ → Fin m → ℚ) (k : ℕ) :
    gs (Function.update (Function.update b (k + 1) (b k)) k (b (k + 1))) k =
      gs b (k + 1) + coef b (k + 1) k • gs b k := by
  have h1 : ∀ l < k, gs (Function.update (Function.update b (k + 1) (b k)) k (b (k + 1))) l = gs b l := by
    intro l hl
    refine gs_congr _ _ _ fun j hj => ?_
    rw [Function.update_of_ne (by omega), Function.update_of_ne (by omega)]
  rw [gs_eq, gs_eq b (k + 1), Function.update_self, Finset.sum_range_succ]
  have : ∀ l ∈ range k, coef (Function.update (Function.update b (k + 1) (b k)) k (b (k + 1))) k l •
      gs (Function.update (Function.update b (k + 1) (b k)) k (b (k + 1))) l =
        coef b (k + 1) l • gs b l := by
    intro l hl
    have hl := Finset.mem_range.mp hl
    unfold coef
    rw [h1 l hl, Function.update_self]
  rw [Finset.sum_congr rfl this]
  abel

/-! ## The code computes it -/

/-- the columns of the code, over the rational numbers -/
def R (b : ℕ → Fin m → ℤ) : ℕ → Fin m → ℚ := fun i => toRat (b i)

theorem gsColumn_spec (input : ℕ → Fin m → ℤ) (basis : ℕ → Fin m → ℚ) (column : ℕ)
    (h : ∀ j < column, basis j = gs (R input) j) :
    ∃ basis', gsColumn input basis column = some basis' ∧ basis' column = gs (R input) column ∧
      ∀ l, l ≠ column → basis' l = basis l := by
  have key : ∀ J, J ≤ column → ∃ basis', (List.range J).foldlM (gsStep input column)
      (Function.update basis column (toRat (input column))) = some basis' ∧
      basis' column = R input column - ∑ l ∈ range J, coef (R input) column l • gs (R input) l ∧
      ∀ l, l ≠ column → basis' l = basis l := by
    intro J
    induction J with
    | zero =>
      intro _
      refine ⟨_, rfl, by simp [R], fun l hl => Function.update_of_ne hl _ _⟩
    | succ J ih =>
      intro hJ
      obtain ⟨B, h1, h2, h3⟩ := ih (by omega)
      rw [List.range_succ, List.foldlM_append, h1]
      simp only [List.foldlM_cons, List.foldlM_nil, Option.bind_eq_bind, Option.bind_some]
      have hBJ : B J = gs (R input) J := by rw [h3 J (by omega), h J (by omega)]
      have hdot : ∀ l, J ≤ l → B column ⬝ᵥ gs (R input) l = R input column ⬝ᵥ gs (R input) l := by
        intro l hl
        rw [h2, sub_dotProduct, sum_dot, Finset.sum_eq_zero, sub_zero]
        intro i hi
        have hi := Finset.mem_range.mp hi
        rw [smul_dotProduct, gs_orth _ i l (by omega), smul_zero]
      have hzero : ∀ l < J, B column ⬝ᵥ gs (R input) l = 0 := by
        intro l hl
        rw [h2, sub_dotProduct, sum_dot, Finset.sum_eq_single l]
        · rw [smul_dotProduct, smul_eq_mul, coef_mul_self, sub_self]
        · intro i hi hil
          rw [smul_dotProduct, gs_orth _ i l hil, smul_zero]
        · intro h; exact absurd (Finset.mem_range.mpr hl) h
      have hn : B column ⬝ᵥ toRat (input J) = R input column ⬝ᵥ gs (R input) J := by
        rw [show toRat (input J) = R input J from rfl, decomp (R input) J, dotProduct_add, hdot J le_rfl,
          dotProduct_comm (B column), sum_dot, Finset.sum_eq_zero, add_zero]
        intro l hl
        rw [smul_dotProduct, dotProduct_comm, hzero l (Finset.mem_range.mp hl), smul_zero]
      unfold gsStep
      simp only [inner_eq]
      rw [hn, hBJ]
      by_cases hd : gs (R input) J ⬝ᵥ gs (R input) J = 0
      · have hz := dotProduct_self_eq_zero.mp hd
        rw [if_pos hd, hz, dotProduct_zero, if_pos rfl]
        refine ⟨B, rfl, ?_, h3⟩
        rw [h2, Finset.sum_range_succ, hz, smul_zero, add_zero]
      · rw [if_neg hd]
        refine ⟨_, rfl, ?_, fun l hl => by rw [Function.update_of_ne hl]; exact h3 l hl⟩
        rw [Function.update_self, Finset.sum_range_succ, h2]
        funext y
        simp only [Pi.sub_apply, Pi.add_apply, Pi.smul_apply, smul_eq_mul]
        unfold coef
        ring
  obtain ⟨B, h1, h2, h3⟩ := key column le_rfl
  exact ⟨B, h1, by rw [h2, gs_eq], h3⟩

theorem gramSchmidt_spec (n : ℕ) (input : ℕ → Fin m → ℤ) :
    ∃ B, gramSchmidt n input = some B ∧ ∀ i < n, B i = gs (R input) i := by
  unfold gramSchmidt
  induction n with
  | zero => exact ⟨_, rfl, fun i hi => by omega⟩
  | succ n ih =>
    obtain ⟨B, h1, h2⟩ := ih
    rw [List.range_succ, List.foldlM_append, h1]
    simp only [List.foldlM_cons, List.foldlM_nil, Option.bind_eq_bind, Option.bind_some]
    obtain ⟨B', h3, h4, h5⟩ := gsColumn_spec input B n h2
    rw [h3]
    refine ⟨B', rfl, fun i hi => ?_⟩
    by_cases hin : i = n
    · rw [hin, h4]
    · rw [h5 i hin, h2 i (by omega)]

/-- the columns that the state calls valid are right -/
def State.Good (s : State m) : Prop := ∀ j < s.valid, s.orthogonal j = gs (R s.basis) j

theorem calculate_spec (s : State m) (hs : s.Good) (c : ℕ) :
    ∃ t, s.calculate c = some t ∧ t.basis = s.basis ∧ t.Good ∧ c < t.valid := by
  unfold State.calculate
  have key : ∀ (count : ℕ) (s : State m), s.Good → ∃ t, s.calculateLoop count = some t ∧
      t.basis = s.basis ∧ t.Good ∧ t.valid = s.valid + count := by
    intro count
    induction count with
    | zero => intro s hs; exact ⟨s, rfl, rfl, hs, rfl⟩
    | succ count ih =>
      intro s hs
      obtain ⟨o, h1, h2, h3⟩ := gsColumn_spec s.basis s.orthogonal s.valid hs
      unfold State.calculateLoop
      rw [h1]
      obtain ⟨t, h4, h5, h6, h7⟩ := ih ⟨s.basis, o, s.valid + 1⟩ (by
        intro j hj
        simp only at hj ⊢
        by_cases hjv : j = s.valid
        · rw [hjv, h2]
        · rw [h3 j hjv, hs j (by omega)])
      exact ⟨t, h4, h5, h6, by simp only at h7; omega⟩
  obtain ⟨t, h1, h2, h3, h4⟩ := key (c + 1 - s.valid) s hs
  exact ⟨t, h1, h2, h3, by omega⟩

theorem mu_spec (s : State m) (hs : s.Good) (i j : ℕ) :
    (gs (R s.basis) j ⬝ᵥ gs (R s.basis) j = 0 ∧ s.mu i j = none) ∨
    (gs (R s.basis) j ⬝ᵥ gs (R s.basis) j ≠ 0 ∧ ∃ t, s.mu i j = some (coef (R s.basis) i j, t) ∧
      t.basis = s.basis ∧ t.Good) := by
  obtain ⟨t, h1, h2, h3, h4⟩ := calculate_spec s hs j
  unfold State.mu
  rw [h1]
  simp only [Option.bind_eq_bind, Option.bind_some, inner_eq]
  rw [h3 j h4, h2]
  by_cases hd : gs (R s.basis) j ⬝ᵥ gs (R s.basis) j = 0
  · left; exact ⟨hd, by rw [if_pos hd]⟩
  · right
    refine ⟨hd, t, ?_, h2, h3⟩
    rw [if_neg hd, dotProduct_comm]
    rfl

theorem roundEven_spec (q : ℚ) : |q - roundEven q| ≤ 1 / 2 := by
  have h1 := Int.floor_le q
  have h2 := Int.lt_floor_add_one q
  unfold roundEven
  simp only
  rw [abs_le]
  by_cases h3 : q - ⌊q⌋ = 1 / 2
  · rw [if_pos h3]
    split <;> push_cast <;> constructor <;> linarith
  · rw [if_neg h3]
    split <;> push_cast <;> constructor <;> linarith

end Lattice

end Algebraics
