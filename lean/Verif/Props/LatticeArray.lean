import Verif.Lemmas.LatticeArray
import Verif.Props.Lattice

/-!
# C91: lattice reduction on the arrays as they are stored

The columns of an array are read with its index operator; all statements are about those.
-/

namespace Algebraics

namespace Lattice

namespace Stored

variable {m n : ℕ}

/-- the columns of an array, as indexing reads them. -/
def columns {α : Type} [Zero α] (m : ℕ) (a : Array2D α) : ℕ → Fin m → α := fun x y => (a.index x y).getD 0

/-- an `Array2DOwned` of the given sizes: all its elements and no others are stored, column after column. -/
def Owned {α : Type} (n m : ℕ) (a : Array2D α) : Prop :=
  a.xSize = n ∧ a.ySize = m ∧ a.stride = m ∧ a.data.length = n * m

theorem columns_arr {α : Type} [Zero α] (f : ℕ → Fin m → α) (x : ℕ) (hx : x < n) : columns m (arr n f) x = f x := by
  funext y
  rw [columns, arr_index f hx y.isLt]
  rfl

theorem owned_arr {α : Type} (f : ℕ → Fin m → α) : Owned n m (arr n f) := ⟨rfl, rfl, rfl, arr_length n f⟩

theorem Owned.eq_arr {α : Type} [Zero α] {a : Array2D α} (h : Owned n m a) : a = arr n (columns m a) := by
  obtain ⟨xs, ys, st, d⟩ := a
  obtain ⟨h1, h2, h3, h⟩ := h
  simp only at h1 h2 h3 h
  subst xs ys st
  unfold arr
  congr 1
  apply List.ext_getElem
  · simp [h]
  intro i h1 h2
  rw [List.getElem_ofFn]
  have hm : 0 < m := by
    rcases Nat.eq_zero_or_pos m with rfl | h'
    · rw [h] at h1; omega
    · exact h'
  have h3 : i / m < n := Nat.div_lt_of_lt_mul (by rw [Nat.mul_comm, ← h]; exact h1)
  have h4 := Nat.mod_lt i hm
  have h5 : i / m * m + i % m = i := by rw [Nat.mul_comm]; exact Nat.div_add_mod i m
  simp only [columns, Array2D.index]
  rw [if_pos ⟨h3, h4⟩, h5, List.getElem?_eq_getElem h1]
  rfl

theorem lattice_congr {b b' : ℕ → Fin m → ℤ} (h : ∀ x < n, b x = b' x) : lattice n b = lattice n b' := by
  unfold lattice
  have := Set.image_congr (s := {i | i < n}) fun i hi => h i hi
  rw [this]

theorem gramSchmidt_congr {b b' : ℕ → Fin m → ℤ} {g g' : ℕ → Fin m → ℚ} (h : ∀ x < n, b x = b' x)
    (hg : ∀ x < n, g x = g' x) (H : IsGramSchmidt n b g) : IsGramSchmidt n b' g' := by
  refine ⟨fun i hi j hj => ?_, fun i hi => ?_⟩
  · rw [← hg i hi, ← hg j (hj.trans hi)]; exact H.orthogonal i hi j hj
  · have h1 := Set.image_congr (s := {j | j < i}) fun j hj => hg j (lt_trans hj hi)
    rw [← h i hi, ← hg i hi, ← h1]
    exact H.triangular i hi

theorem reduced_congr {b b' : ℕ → Fin m → ℤ} {δ : ℚ} (h : ∀ x < n, b x = b' x) (H : Reduced n δ b) :
    Reduced n δ b' := by
  obtain ⟨g, h1, h2, h3⟩ := H
  refine ⟨g, gramSchmidt_congr h (fun _ _ => rfl) h1, fun i hi j hj => ?_, fun k hk => ?_⟩
  · rw [← h i hi]; exact h2 i hi j hj
  · rw [← h (k + 1) hk]; exact h3 k hk

theorem independent_congr {b b' : ℕ → Fin m → ℤ} (h : ∀ x < n, b x = b' x) (H : Independent n b) :
    Independent n b' := by
  unfold Independent at *
  have : (fun i : Fin n => b' i) = fun i : Fin n => b i := funext fun i => (h i i.isLt).symm
  rw [this]
  exact H

theorem reduceWithDelta_eq {a : Array2D ℤ} (h : Owned n m a) (δ : ℚ) (fuel : ℕ) :
    reduceWithDelta a δ fuel = (Lattice.reduceWithDelta n (columns m a) δ fuel).map (arr n) := by
  conv_lhs => rw [h.eq_arr]
  exact reduceWithDelta_arr n _ δ fuel

theorem reduceWithDelta_ok {a a' : Array2D ℤ} (h : Owned n m a) {δ : ℚ} {fuel : ℕ}
    (h' : reduceWithDelta a δ fuel = .ok a') :
    ∃ b', Lattice.reduceWithDelta n (columns m a) δ fuel = .ok b' ∧ a' = arr n b' := by
  rw [reduceWithDelta_eq h] at h'
  cases hb : Lattice.reduceWithDelta n (columns m a) δ fuel with
  | error e => rw [hb] at h'; cases h'
  | ok b' => rw [hb] at h'; cases h'; exact ⟨b', rfl, rfl⟩

theorem valid_reads {a : Array2D ℤ} (hv : a.Valid) (hx : a.xSize = n) (hy : a.ySize = m) (hm : 0 < m) :
    Reads a n (columns m a) := by
  refine ⟨hx, hy, fun x hx' y hy' => ?_, fun x hx' => ?_⟩
  · have h1 := hv.2 x y (by omega) (by omega)
    rw [columns, Array2D.index, if_pos ⟨by omega, by simp only; omega⟩, List.getElem?_eq_getElem h1]
    rfl
  · have h1 := hv.2 x 0 (by omega) (by omega)
    omega

/-- **C91**: `gram_schmidt` on an array or a slice of an array, of any stride, with at least one row: no index is out of
range, no division is by zero, and the columns of the array returned are the Gram-Schmidt orthogonalization. -/
theorem _root_.Algebraics.C91_gram_schmidt (a : Array2D ℤ) (hv : a.Valid) (hx : a.xSize = n) (hy : a.ySize = m)
    (hm : 0 < m) :
    ∃ g, gramSchmidt a = some g ∧ Owned n m g ∧ IsGramSchmidt n (columns m a) (columns m g) := by
  obtain ⟨g, h1, h2⟩ := C52_gram_schmidt n (columns m a)
  refine ⟨arr n g, by rw [gramSchmidt_arr (valid_reads hv hx hy hm), h1]; rfl, owned_arr g, ?_⟩
  exact gramSchmidt_congr (fun _ _ => rfl) (fun x hx => (columns_arr g x hx).symm) h2

/-- **C91**: the same for every owned array, also for columns of length zero. -/
theorem _root_.Algebraics.C91_gram_schmidt_owned (a : Array2D ℤ) (h : Owned n m a) :
    ∃ g, gramSchmidt a = some g ∧ Owned n m g ∧ IsGramSchmidt n (columns m a) (columns m g) := by
  obtain ⟨g, h1, h2⟩ := C52_gram_schmidt n (columns m a)
  have hr : Reads a n (columns m a) := by
    have := reads_arr n (columns m a)
    rwa [← h.eq_arr] at this
  refine ⟨arr n g, by rw [gramSchmidt_arr hr, h1]; rfl, owned_arr g, ?_⟩
  exact gramSchmidt_congr (fun _ _ => rfl) (fun x hx => (columns_arr g x hx).symm) h2

/-- **C91**: when `lll_reduce_with_delta` returns, it returns an array of the same sizes whose columns generate the same
lattice and are reduced. -/
theorem _root_.Algebraics.C91_reduce (a a' : Array2D ℤ) (h : Owned n m a) (δ : ℚ) (fuel : ℕ)
    (h' : reduceWithDelta a δ fuel = .ok a') :
    Owned n m a' ∧ lattice n (columns m a') = lattice n (columns m a) ∧ Reduced n δ (columns m a') := by
  obtain ⟨b', h1, rfl⟩ := reduceWithDelta_ok h h'
  refine ⟨owned_arr b', ?_, ?_⟩
  · rw [lattice_congr (columns_arr b')]
    exact C52_same_lattice n _ b' δ fuel h1
  · exact reduced_congr (fun x hx => (columns_arr b' x hx).symm) (C52_reduced n _ b' δ fuel h1)

/-- **C91**: the loop always ends, for every constant up to 1. -/
theorem _root_.Algebraics.C91_terminates (a : Array2D ℤ) (h : Owned n m a) (δ : ℚ) (hδ : δ ≤ 1) :
    ∃ N, ∀ fuel, N ≤ fuel → reduceWithDelta a δ fuel ≠ .error .fuel := by
  obtain ⟨N, hN⟩ := C52_terminates n (columns m a) δ hδ
  refine ⟨N, fun fuel hf h' => hN fuel hf ?_⟩
  rw [reduceWithDelta_eq h] at h'
  cases hb : Lattice.reduceWithDelta n (columns m a) δ fuel with
  | error e => rw [hb] at h'; cases h'; rfl
  | ok b' => rw [hb] at h'; cases h'

/-- **C91**: linearly independent columns are reduced without a panic: no division is by zero, no index is out of range. -/
theorem _root_.Algebraics.C91_independent (a : Array2D ℤ) (h : Owned n m a) (δ : ℚ) (hδ : δ ≤ 1)
    (hb : Independent n (columns m a)) :
    ∃ a' N, (∀ fuel, N ≤ fuel → reduceWithDelta a δ fuel = .ok a') ∧ Owned n m a' ∧
      lattice n (columns m a') = lattice n (columns m a) ∧ Reduced n δ (columns m a') ∧
      Independent n (columns m a') := by
  obtain ⟨b', N, h1, -, -, h4⟩ := C52_independent n (columns m a) δ hδ hb
  have h5 : ∀ fuel, N ≤ fuel → reduceWithDelta a δ fuel = .ok (arr n b') := by
    intro fuel hf
    rw [reduceWithDelta_eq h, h1 fuel hf]
    rfl
  obtain ⟨h6, h7, h8⟩ := C91_reduce a _ h δ N (h5 N le_rfl)
  exact ⟨arr n b', N, h5, h6, h7, h8, independent_congr (fun x hx => (columns_arr b' x hx).symm) h4⟩

/-- **C91**, the limit: two or more linearly dependent columns always lead to a panic. -/
theorem _root_.Algebraics.C91_dependent_panics (a : Array2D ℤ) (h : Owned n m a) (hn : 2 ≤ n) (δ : ℚ) (h0 : 1 / 4 < δ)
    (hδ : δ ≤ 1) (hb : ¬ Independent n (columns m a)) :
    ∃ N, ∀ fuel, N ≤ fuel → reduceWithDelta a δ fuel = .error .panic := by
  obtain ⟨N, hN⟩ := C52_dependent_panics n hn (columns m a) δ h0 hδ hb
  refine ⟨N, fun fuel hf => ?_⟩
  rw [reduceWithDelta_eq h, hN fuel hf]
  rfl

/-- **C91**: `lll_reduce` on two or more columns returns exactly when they are linearly independent. -/
theorem _root_.Algebraics.C91_returns_iff (a : Array2D ℤ) (h : Owned n m a) (hn : 2 ≤ n) :
    (∃ fuel a', reduce a fuel = .ok a') ↔ Independent n (columns m a) := by
  rw [← C52_returns_iff n hn]
  constructor
  · rintro ⟨fuel, a', h'⟩
    obtain ⟨b', h1, -⟩ := reduceWithDelta_ok h h'
    exact ⟨fuel, b', h1⟩
  · rintro ⟨fuel, b', h'⟩
    refine ⟨fuel, arr n b', ?_⟩
    show reduceWithDelta a (3 / 4) fuel = _
    rw [reduceWithDelta_eq h, show Lattice.reduceWithDelta n (columns m a) (3 / 4) fuel = .ok b' from h']
    rfl

/-- **C91**: no column or one column: the array is returned as it is. -/
theorem _root_.Algebraics.C91_few_columns (a : Array2D ℤ) (h : Owned n m a) (hn : n ≤ 1) (δ : ℚ) (fuel : ℕ) :
    reduceWithDelta a δ (fuel + 1) = .ok a := by
  rw [reduceWithDelta_eq h]
  conv_rhs => rw [h.eq_arr]
  unfold Lattice.reduceWithDelta Lattice.loop
  rw [if_neg (by omega)]
  rfl

/-- **C91**: the first column of the array returned is almost a shortest vector of the lattice of the input. -/
theorem _root_.Algebraics.C91_short (a a' : Array2D ℤ) (h : Owned n m a) (fuel : ℕ) (h' : reduce a fuel = .ok a')
    (v : Fin m → ℤ) (hv : v ∈ lattice n (columns m a)) (h0 : v ≠ 0) :
    columns m a' 0 ⬝ᵥ columns m a' 0 ≤ 2 ^ (n - 1) * (v ⬝ᵥ v) := by
  obtain ⟨-, h2, h3⟩ := C91_reduce a a' h _ fuel h'
  exact C59_reduced_short n _ h3 v (by rw [h2]; exact hv) h0

/-! ### examples -/

/-- the array with the columns (201, 37) and (1648, 297). -/
def exampleArray : Array2D ℤ := ⟨2, 2, 2, [201, 37, 1648, 297]⟩

example : Owned 2 2 exampleArray := ⟨rfl, rfl, rfl, rfl⟩

/-- it is reduced to the columns (1, 32) and (40, 1). -/
example : (reduce exampleArray 20).map (fun a => (a.xSize, a.ySize, a.stride, a.data)) = .ok (2, 2, 2, [1, 32, 40, 1]) := by
  decide +kernel

example : Independent 2 (columns 2 exampleArray) := by
  unfold Independent
  rw [Fintype.linearIndependent_iff]
  intro g hg i
  have h0 := congrFun hg 0
  have h1 := congrFun hg 1
  simp [Fin.sum_univ_two, exampleArray, columns, Array2D.index] at h0 h1
  fin_cases i
  · show g 0 = 0; omega
  · show g 1 = 0; omega

/-- a slice that is not an owned array: the first row of the two columns, stride 2. -/
example : (⟨2, 1, 2, [201, 37, 1648, 297]⟩ : Array2D ℤ).Valid := by
  refine ⟨by decide, ?_⟩
  intro x y hx hy
  simp only at hx hy ⊢
  simp only [List.length_cons, List.length_nil]
  omega

example : (gramSchmidt ⟨2, 1, 2, [201, 37, 1648, 297]⟩).map (fun g => g.data) = some [201, 0] := by decide +kernel

/-- linearly dependent columns: a panic. -/
example : (reduce ⟨2, 2, 2, [1, 2, 2, 4]⟩ 20).map (fun _ => ()) = .error .panic := by decide +kernel

end Stored

end Lattice

end Algebraics
