import Verif.Model.Array2DMake
import Verif.Props.Array2D

/-!
Property C56 for every kind of slice bounds, the constructors and `to_owned`.
-/

namespace Algebraics

/-! ## Specification -/

/-- what a bound from below lets through -/
def Bound.Above : Bound → ℕ → Prop
  | .unbounded, _ => True
  | .excluded v, i => v < i
  | .included v, i => v ≤ i

/-- what a bound from above lets through, in a direction with `size` indices -/
def Bound.Below : Bound → ℕ → ℕ → Prop
  | .unbounded, size, i => i < size
  | .excluded v, _, i => i < v
  | .included v, _, i => i ≤ v

/-- the indices that the range stands for in a direction with `size` indices -/
def SliceBound.Selects : SliceBound → ℕ → ℕ → Prop
  | index j, _, i => i = j
  | full, size, i => i < size
  | range s e, _, i => s ≤ i ∧ i < e
  | rangeFrom s, size, i => s ≤ i ∧ i < size
  | rangeTo e, _, i => i < e
  | rangeInclusive s l, _, i => s ≤ i ∧ i ≤ l
  | rangeToInclusive l, _, i => i ≤ l
  | bounds s e, size, i => s.Above i ∧ e.Below size i

/-- the calls of the closure that the elements come from, one after the other -/
def callAll {σ α ι : Type} (f : ι → σ → σ × α) : List ι → σ → σ × List α
  | [], s => (s, [])
  | i :: is, s => ((callAll f is (f i s).1).1, (f i s).2 :: (callAll f is (f i s).1).2)

/-! ## Slices -/

theorem startAndEnd_form (b : SliceBound) (size : ℕ) : ∃ s e : ℕ,
    startAndEnd b.toBounds size =
      (if ¬ s ≤ e then none else if ¬ e ≤ size then none else some (s, e)) ∧
    ∀ i, b.Selects size i ↔ s ≤ i ∧ i < e := by
  cases b with
  | index j => exact ⟨j, j + 1, rfl, fun i => by simp only [SliceBound.Selects]; omega⟩
  | full => exact ⟨0, size, rfl, fun i => by simp only [SliceBound.Selects]; omega⟩
  | range s e => exact ⟨s, e, rfl, fun i => by simp only [SliceBound.Selects]⟩
  | rangeFrom s => exact ⟨s, size, rfl, fun i => by simp only [SliceBound.Selects]⟩
  | rangeTo e => exact ⟨0, e, rfl, fun i => by simp only [SliceBound.Selects]; omega⟩
  | rangeInclusive s l => exact ⟨s, l + 1, rfl, fun i => by simp only [SliceBound.Selects]; omega⟩
  | rangeToInclusive l => exact ⟨0, l + 1, rfl, fun i => by simp only [SliceBound.Selects]; omega⟩
  | bounds p q =>
    have hp : ∃ s : ℕ, (match p with
        | .unbounded => 0
        | .excluded v => v + 1
        | .included v => v) = s ∧ ∀ i, p.Above i ↔ s ≤ i := by
      cases p with
      | unbounded => exact ⟨0, rfl, fun i => by simp [Bound.Above]⟩
      | excluded v => exact ⟨v + 1, rfl, fun i => by simp only [Bound.Above]; omega⟩
      | included v => exact ⟨v, rfl, fun i => by simp only [Bound.Above]⟩
    have hq : ∃ e : ℕ, (match q with
        | .unbounded => size
        | .excluded v => v
        | .included v => v + 1) = e ∧ ∀ i, q.Below size i ↔ i < e := by
      cases q with
      | unbounded => exact ⟨size, rfl, fun i => by simp only [Bound.Below]⟩
      | excluded v => exact ⟨v, rfl, fun i => by simp only [Bound.Below]⟩
      | included v => exact ⟨v + 1, rfl, fun i => by simp only [Bound.Below]; omega⟩
    obtain ⟨s, hs1, hs2⟩ := hp
    obtain ⟨e, he1, he2⟩ := hq
    refine ⟨s, e, ?_, fun i => by simp only [SliceBound.Selects, hs2, he2]⟩
    rw [← hs1, ← he1]
    rfl

theorem startAndEnd_spec (b : SliceBound) (size s e : ℕ) (h : startAndEnd b.toBounds size = some (s, e)) :
    s ≤ e ∧ e ≤ size ∧ ∀ i, b.Selects size i ↔ s ≤ i ∧ i < e := by
  obtain ⟨s', e', h1, h2⟩ := startAndEnd_form b size
  rw [h1] at h
  by_cases hc : s' ≤ e'
  · rw [if_neg (not_not.mpr hc)] at h
    by_cases hd : e' ≤ size
    · rw [if_neg (not_not.mpr hd)] at h
      injection h with h
      injection h with h3 h4
      subst h3 h4
      exact ⟨hc, hd, h2⟩
    · rw [if_pos hd] at h; exact absurd h (by simp)
  · rw [if_pos hc] at h; exact absurd h (by simp)

/-- A range that stands for at least one index is accepted exactly if the indices exist. -/
theorem startAndEnd_isSome (b : SliceBound) (size i : ℕ) (hi : b.Selects size i) :
    (startAndEnd b.toBounds size).isSome ↔ ∀ j, b.Selects size j → j < size := by
  constructor
  · intro h j hj
    obtain ⟨⟨s, e⟩, he⟩ := Option.isSome_iff_exists.mp h
    obtain ⟨-, h2, h3⟩ := startAndEnd_spec b size s e he
    have := (h3 j).mp hj
    omega
  · intro h
    obtain ⟨s, e, h1, hs⟩ := startAndEnd_form b size
    have h3 := (hs i).mp hi
    have h2 := h (e - 1) ((hs (e - 1)).mpr (by omega))
    rw [h1, if_neg (by omega), if_neg (by omega)]
    rfl

namespace Array2D

variable {α σ : Type}

/-- C56: whatever kind of range is used, a slice is a valid array that shows exactly the elements at the
indices the ranges stand for; empty slices are included. -/
theorem _root_.Algebraics.C56_slice_bounds (a b : Array2D α) (h : a.Valid) (xb yb : SliceBound)
    (hb : a.sliceBounds xb yb = some b) :
    b.Valid ∧ ∃ x0 y0, (∀ i, xb.Selects a.xSize i ↔ x0 ≤ i ∧ i < x0 + b.xSize) ∧
      (∀ i, yb.Selects a.ySize i ↔ y0 ≤ i ∧ i < y0 + b.ySize) ∧
      x0 + b.xSize ≤ a.xSize ∧ y0 + b.ySize ≤ a.ySize ∧
      ∀ x y, x < b.xSize → y < b.ySize → b.index x y = a.index (x0 + x) (y0 + y) := by
  simp only [sliceBounds, Option.bind_eq_bind] at hb
  obtain ⟨⟨x0, x1⟩, hx, hb⟩ := Option.bind_eq_some_iff.mp hb
  obtain ⟨⟨y0, y1⟩, hy, hb⟩ := Option.bind_eq_some_iff.mp hb
  obtain ⟨hx1, hx2, hx3⟩ := startAndEnd_spec _ _ _ _ hx
  obtain ⟨hy1, hy2, hy3⟩ := startAndEnd_spec _ _ _ _ hy
  simp only [slice] at hb
  rw [if_pos ⟨hx1, hx2, hy1, hy2⟩] at hb
  split at hb
  swap
  · exact absurd hb (by simp)
  next hoff =>
  injection hb with hb
  subst hb
  refine ⟨⟨?_, ?_⟩, x0, y0, ?_, ?_, ?_, ?_, ?_⟩
  · have := h.1
    simp only
    omega
  · intro x y hx' hy'
    simp only at hx' hy' ⊢
    have := h.2 (x0 + x) (y0 + y) (by omega) (by omega)
    rw [Nat.add_mul] at this
    rw [List.length_drop]
    omega
  · intro i; rw [hx3]; simp only; omega
  · intro i; rw [hy3]; simp only; omega
  · simp only; omega
  · simp only; omega
  · intro x y hx' hy'
    simp only at hx' hy'
    rw [index, index, if_pos ⟨hx', hy'⟩, if_pos ⟨by omega, by omega⟩]
    simp only
    rw [List.getElem?_drop]
    congr 1
    ring

/-- C56: taking a slice with ranges that stand for at least one index each panics exactly if one of them
stands for an index that the array does not have. -/
theorem _root_.Algebraics.C56_slice_bounds_panics (a : Array2D α) (h : a.Valid) (xb yb : SliceBound)
    (hx : ∃ i, xb.Selects a.xSize i) (hy : ∃ i, yb.Selects a.ySize i) :
    a.sliceBounds xb yb = none ↔
      (∃ i, xb.Selects a.xSize i ∧ ¬ i < a.xSize) ∨ ∃ i, yb.Selects a.ySize i ∧ ¬ i < a.ySize := by
  obtain ⟨i, hi⟩ := hx
  obtain ⟨j, hj⟩ := hy
  have kx := startAndEnd_isSome xb a.xSize i hi
  have ky := startAndEnd_isSome yb a.ySize j hj
  unfold sliceBounds
  cases ex : startAndEnd xb.toBounds a.xSize with
  | none =>
    rw [ex] at kx
    simp only [Option.isSome_none, Bool.false_eq_true, false_iff, not_forall] at kx
    simp only [Option.bind_eq_bind, Option.bind_none, true_iff]
    obtain ⟨k, h1, h2⟩ := kx
    exact Or.inl ⟨k, h1, h2⟩
  | some p =>
    rw [ex] at kx
    simp only [Option.isSome_some, true_iff] at kx
    cases ey : startAndEnd yb.toBounds a.ySize with
    | none =>
      rw [ey] at ky
      simp only [Option.isSome_none, Bool.false_eq_true, false_iff, not_forall] at ky
      simp only [Option.bind_eq_bind, Option.bind_some, Option.bind_none, true_iff]
      obtain ⟨k, h1, h2⟩ := ky
      exact Or.inr ⟨k, h1, h2⟩
    | some q =>
      rw [ey] at ky
      simp only [Option.isSome_some, true_iff] at ky
      obtain ⟨x0, x1⟩ := p
      obtain ⟨y0, y1⟩ := q
      obtain ⟨hx1, hx2, hx3⟩ := startAndEnd_spec _ _ _ _ ex
      obtain ⟨hy1, hy2, hy3⟩ := startAndEnd_spec _ _ _ _ ey
      have hi' := (hx3 i).mp hi
      have hj' := (hy3 j).mp hj
      obtain ⟨b, hb, -⟩ := C56_slice_partial a h x0 x1 y0 y1 (by omega) hx2 (by omega) hy2
      simp only [Option.bind_eq_bind, Option.bind_some, hb, reduceCtorEq, false_iff, not_or, not_exists,
        not_and, not_not]
      exact ⟨kx, ky⟩

/-- C56: the exact condition under which slicing an array that owns its elements panics: a range that is
out of bounds or reversed, or an empty range of columns behind the last one together with a range of rows
that does not start at zero. -/
theorem _root_.Algebraics.C56_slice_owned_iff (xSize ySize : ℕ) (data : List α) (a : Array2D α)
    (ha : fromArray xSize ySize data = some a) (x0 x1 y0 y1 : ℕ) :
    a.slice x0 x1 y0 y1 = none ↔
      ¬ (x0 ≤ x1 ∧ x1 ≤ xSize ∧ y0 ≤ y1 ∧ y1 ≤ ySize) ∨ (x0 = xSize ∧ 0 < y0) := by
  unfold fromArray at ha
  split at ha
  swap
  · exact absurd ha (by simp)
  next hl =>
  injection ha with ha
  subst ha
  unfold slice
  simp only
  by_cases hc : x0 ≤ x1 ∧ x1 ≤ xSize ∧ y0 ≤ y1 ∧ y1 ≤ ySize
  · rw [if_pos hc]
    simp only [hc, and_self, not_true_eq_false, false_or, ite_eq_right_iff, reduceCtorEq, imp_false,
      not_le]
    rw [← hl]
    constructor
    · intro hlt
      have hx : ¬ x0 < xSize := by
        intro hx
        have : (x0 + 1) * ySize ≤ xSize * ySize := Nat.mul_le_mul_right _ hx
        rw [Nat.add_mul] at this
        omega
      have : x0 = xSize := by omega
      subst this
      omega
    · rintro ⟨rfl, hy⟩
      omega
  · rw [if_neg hc]
    simp [hc]

example : ∃ a : Array2D ℕ, fromArray 2 3 [0, 1, 2, 10, 11, 12] = some a ∧ a.Valid ∧
    (∃ b, a.sliceBounds (.index 1) (.rangeToInclusive 1) = some b ∧ b.data = [10, 11, 12] ∧ b.xSize = 1 ∧
      b.ySize = 2) ∧
    a.sliceBounds (.rangeInclusive 1 2) .full = none := by
  obtain ⟨a, h1, h2, -⟩ := C56_from_array 2 3 [0, 1, 2, 10, 11, 12] rfl
  refine ⟨a, h1, h2, ?_⟩
  have : a = ⟨2, 3, 3, [0, 1, 2, 10, 11, 12]⟩ := by
    have h3 : fromArray 2 3 [0, 1, 2, 10, 11, 12] = some ⟨2, 3, 3, [0, 1, 2, 10, 11, 12]⟩ := rfl
    rw [h3] at h1
    exact (Option.some.inj h1).symm
  subst this
  exact ⟨⟨_, rfl, rfl, rfl, rfl⟩, rfl⟩

/-! ## Constructors -/

theorem collectPositions_eq (f : ℕ → ℕ → σ → σ × α) (fuel : ℕ) {p : Positions} {l : List (ℕ × ℕ)}
    (h : PosInv p l) (hf : l.length < fuel) (s : σ) :
    collectPositions f fuel p s = some (callAll (fun q => f q.1 q.2) l s) := by
  induction fuel generalizing p l s with
  | zero => omega
  | succ fuel ih =>
    obtain ⟨h1, h2⟩ := h.next
    rw [collectPositions]
    cases l with
    | nil =>
      simp only [List.head?_nil] at h2
      generalize p.next = r at h1 h2 ⊢
      obtain ⟨p', o⟩ := r
      simp only at h2
      subst h2
      rfl
    | cons q l =>
      simp only [List.head?_cons] at h2
      generalize p.next = r at h1 h2 ⊢
      obtain ⟨p', o⟩ := r
      simp only at h2 h1
      subst h2
      simp only [List.tail_cons] at h1
      obtain ⟨x, y⟩ := q
      have := ih h1 (by simpa using hf) (f x y s).1
      simp only [this]
      rfl

theorem callAll_length {ι : Type} (f : ι → σ → σ × α) (l : List ι) (s : σ) :
    (callAll f l s).2.length = l.length := by
  induction l generalizing s with
  | nil => rfl
  | cons i l ih => simp [callAll, ih]

theorem columnMajor_length (xSize ySize : ℕ) : (columnMajor xSize ySize).length = xSize * ySize := by
  rw [columnMajor_eq, segment, List.length_map, List.length_range']

theorem columnMajor_getElem? (xSize ySize x y : ℕ) (hx : x < xSize) (hy : y < ySize) :
    (columnMajor xSize ySize)[x * ySize + y]? = some (x, y) := by
  have hlt : x * ySize + y < xSize * ySize := by
    calc x * ySize + y < x * ySize + ySize := by omega
      _ = (x + 1) * ySize := by ring
      _ ≤ xSize * ySize := Nat.mul_le_mul_right _ hx
  rw [columnMajor_eq, segment, List.getElem?_map, List.getElem?_range' hlt]
  have hpos : 0 < ySize := by omega
  simp only [Option.map_some, Nat.zero_add, Nat.one_mul, Option.some.injEq, Prod.mk.injEq]
  rw [Nat.add_comm, Nat.add_mul_div_right _ _ hpos, Nat.add_mul_mod_self_right, Nat.div_eq_of_lt hy,
    Nat.mod_eq_of_lt hy]
  simp

/-- C56: `new_with_positions` calls the closure once for each position, in column-major order, and stores
what it returned at that position. -/
theorem _root_.Algebraics.C56_new_with_positions (xSize ySize : ℕ) (f : ℕ → ℕ → σ → σ × α) (s : σ) :
    ∃ a, newWithPositions xSize ySize f s =
        some ((callAll (fun q : ℕ × ℕ => f q.1 q.2) (columnMajor xSize ySize) s).1, a) ∧
      a.Valid ∧ a.xSize = xSize ∧ a.ySize = ySize ∧
      (columnMajor xSize ySize).map (fun q => a.index q.1 q.2) =
        (callAll (fun q : ℕ × ℕ => f q.1 q.2) (columnMajor xSize ySize) s).2.map some := by
  have h1 := collectPositions_eq f (xSize * ySize + 1) (PosInv.new xSize ySize)
    (by rw [columnMajor_length]; omega) s
  set r := callAll (fun q : ℕ × ℕ => f q.1 q.2) (columnMajor xSize ySize) s with hr
  have hlen : r.2.length = xSize * ySize := by rw [hr, callAll_length, columnMajor_length]
  obtain ⟨a, h2, h3, h4, h5, h6⟩ := C56_from_array xSize ySize r.2 hlen.symm
  refine ⟨a, ?_, h3, h4, h5, ?_⟩
  · unfold newWithPositions
    simp only [h1, Option.bind_eq_bind, Option.bind_some]
    rw [h2]
    rfl
  · apply List.ext_getElem?
    intro i
    rw [List.getElem?_map, List.getElem?_map]
    by_cases hi : i < xSize * ySize
    · have hpos : 0 < ySize := Nat.pos_of_ne_zero (by rintro rfl; simp at hi)
      have hx : i / ySize < xSize := (Nat.div_lt_iff_lt_mul hpos).mpr hi
      have hy : i % ySize < ySize := Nat.mod_lt _ hpos
      have hd : i / ySize * ySize + i % ySize = i := Nat.div_add_mod' i ySize
      have h7 := columnMajor_getElem? xSize ySize (i / ySize) (i % ySize) hx hy
      have h8 := h6 _ _ hx hy
      rw [hd] at h7 h8
      rw [h7]
      simp only [Option.map_some, h8]
      rw [List.getElem?_eq_getElem (by rw [hlen]; exact hi)]
      rfl
    · rw [List.getElem?_eq_none (by rw [columnMajor_length]; omega),
        List.getElem?_eq_none (by rw [hlen]; omega)]
      rfl

/-- C56: with a closure that has no state, `new_with_positions` is the table of the closure. -/
theorem _root_.Algebraics.C56_new_with_positions_pure (xSize ySize : ℕ) (g : ℕ → ℕ → α) :
    ∃ a, newWithPositions xSize ySize (fun x y (s : Unit) => (s, g x y)) () = some ((), a) ∧
      a.Valid ∧ a.xSize = xSize ∧ a.ySize = ySize ∧
      ∀ x y, x < xSize → y < ySize → a.index x y = some (g x y) := by
  obtain ⟨a, h1, h2, h3, h4, h5⟩ :=
    C56_new_with_positions xSize ySize (fun x y (s : Unit) => (s, g x y)) ()
  refine ⟨a, h1, h2, h3, h4, fun x y hx hy => ?_⟩
  have hc : ∀ l : List (ℕ × ℕ), (callAll (fun (q : ℕ × ℕ) (s : Unit) => (s, g q.1 q.2)) l ()).2 =
      l.map fun q => g q.1 q.2 := by
    intro l
    induction l with
    | nil => rfl
    | cons q l ih => simp [callAll, ih]
  rw [hc, List.map_map] at h5
  exact (List.map_inj_left.mp h5) (x, y) ((columnMajor_mem xSize ySize (x, y)).mpr ⟨hx, hy⟩)

theorem resizeWith_eq (f : σ → σ × α) (n : ℕ) (s : σ) :
    resizeWith f n s = callAll (fun (_ : Unit) => f) (List.replicate n ()) s := by
  induction n generalizing s with
  | zero => rfl
  | succ n ih =>
    rw [resizeWith, List.replicate_succ, callAll]
    simp only [ih]

/-- C56: `new_with` calls the closure once for each element and stores the results in column-major order;
`new` stores copies of the value. -/
theorem _root_.Algebraics.C56_new_with (xSize ySize : ℕ) (f : σ → σ × α) (s : σ) :
    (∃ a, newWith xSize ySize f s =
        some ((callAll (fun (_ : Unit) => f) (List.replicate (xSize * ySize) ()) s).1, a) ∧
      a.Valid ∧ a.xSize = xSize ∧ a.ySize = ySize ∧
      ∀ x y, x < xSize → y < ySize → a.index x y =
        (callAll (fun (_ : Unit) => f) (List.replicate (xSize * ySize) ()) s).2[x * ySize + y]?) ∧
    ∀ v : α, ∃ a, new xSize ySize v = some a ∧ a.Valid ∧ a.xSize = xSize ∧ a.ySize = ySize ∧
      ∀ x y, x < xSize → y < ySize → a.index x y = some v := by
  constructor
  · set r := callAll (fun (_ : Unit) => f) (List.replicate (xSize * ySize) ()) s with hr
    have hlen : r.2.length = xSize * ySize := by rw [hr, callAll_length, List.length_replicate]
    obtain ⟨a, h2, h3, h4, h5, h6⟩ := C56_from_array xSize ySize r.2 hlen.symm
    refine ⟨a, ?_, h3, h4, h5, h6⟩
    unfold newWith
    simp only [resizeWith_eq, Option.bind_eq_bind]
    rw [← hr, h2]
    rfl
  · intro v
    obtain ⟨a, h2, h3, h4, h5, h6⟩ := C56_from_array xSize ySize (List.replicate (xSize * ySize) v)
      (by simp)
    refine ⟨a, h2, h3, h4, h5, fun x y hx hy => ?_⟩
    rw [h6 x y hx hy, List.getElem?_replicate, if_pos]
    calc x * ySize + y < x * ySize + ySize := by omega
      _ = (x + 1) * ySize := by ring
      _ ≤ xSize * ySize := Nat.mul_le_mul_right _ hx

example : newWithPositions 2 2 (fun x y (s : ℕ) => (s + 1, (x, y, s))) 7 =
    some (11, ⟨2, 2, 2, [(0, 0, 7), (0, 1, 8), (1, 0, 9), (1, 1, 10)]⟩) := rfl

/-! ## `to_owned` -/

theorem collectIter_eq (a : Array2D α) (fuel : ℕ) {p : Positions} {l : List (ℕ × ℕ)} (h : PosInv p l)
    (hf : l.length < fuel) (E : List α)
    (hE : E.map some = l.map fun q => a.data[q.1 * a.stride + q.2]?) :
    collectIter a fuel p = some E := by
  induction fuel generalizing p l E with
  | zero => omega
  | succ fuel ih =>
    obtain ⟨h1, h2⟩ := h.next
    rw [collectIter]
    cases l with
    | nil =>
      simp only [List.head?_nil] at h2
      simp only [List.map_nil, List.map_eq_nil_iff] at hE
      subst hE
      generalize p.next = r at h1 h2 ⊢
      obtain ⟨p', o⟩ := r
      simp only at h2
      subst h2
      rfl
    | cons q l =>
      cases E with
      | nil => simp at hE
      | cons e E =>
        simp only [List.map_cons, List.cons.injEq] at hE
        simp only [List.head?_cons] at h2
        generalize p.next = r at h1 h2 ⊢
        obtain ⟨p', o⟩ := r
        simp only at h2 h1
        subst h2
        simp only [List.tail_cons] at h1
        obtain ⟨x, y⟩ := q
        have := ih h1 (by simpa using hf) E hE.2
        simp only [this, ← hE.1]
        rfl

/-- C56: `to_owned` of any array or slice never panics, and the copy has the same size and the same
elements. -/
theorem _root_.Algebraics.C56_to_owned (a : Array2D α) (h : a.Valid) :
    ∃ b, a.toOwned = some b ∧ b.Valid ∧ b.xSize = a.xSize ∧ b.ySize = a.ySize ∧
      b.data.length = a.xSize * a.ySize ∧ ∀ x y, b.index x y = a.index x y := by
  obtain ⟨E, hE, -⟩ := C56_iterators a h []
  have hE' : E.map some = (columnMajor a.xSize a.ySize).map fun q => a.data[q.1 * a.stride + q.2]? := by
    rw [hE]
    apply List.map_congr_left
    intro q hq
    rw [index, if_pos ((columnMajor_mem _ _ q).mp hq)]
  have h1 := collectIter_eq a (a.xSize * a.ySize + 1) (PosInv.new a.xSize a.ySize)
    (by rw [columnMajor_length]; omega) E hE'
  have hlen : E.length = a.xSize * a.ySize := by
    have := congrArg List.length hE
    simpa [columnMajor_length] using this
  obtain ⟨b, h2, h3, h4, h5, h6⟩ := C56_from_array a.xSize a.ySize E hlen.symm
  have hdata : b.data = E := by
    unfold fromArray at h2
    rw [if_pos hlen.symm] at h2
    injection h2 with h2
    rw [← h2]
  refine ⟨b, ?_, h3, h4, h5, by rw [hdata, hlen], fun x y => ?_⟩
  · unfold toOwned
    simp only [h1, Option.bind_eq_bind, Option.bind_some]
    exact h2
  · by_cases hc : x < a.xSize ∧ y < a.ySize
    · rw [h6 x y hc.1 hc.2]
      have h7 := congrArg (fun l => l[x * a.ySize + y]?) hE
      simp only [List.getElem?_map] at h7
      rw [columnMajor_getElem? _ _ _ _ hc.1 hc.2] at h7
      simp only [Option.map_some] at h7
      cases h8 : E[x * a.ySize + y]? with
      | none => rw [h8] at h7; simp at h7
      | some v => rw [h8] at h7; simpa using h7
    · rw [index, index, if_neg (by rw [h4, h5]; exact hc), if_neg hc]

example : ∃ b, Array2D.toOwned (⟨2, 1, 3, [1, 2, 10, 11, 12]⟩ : Array2D ℕ) = some b ∧
    b.data = [1, 11] := ⟨_, rfl, rfl⟩

end Array2D

end Algebraics
