import Verif.Model.Array2D
import Mathlib.Tactic

/-!
Properties C51 (positions iterator) and C56 (two-dimensional arrays) of `/repo/src/array2d.rs`.
-/

namespace Algebraics

/-! ## Specification -/

/-- The positions of an array in column-major order. -/
def columnMajor (xSize ySize : ℕ) : List (ℕ × ℕ) :=
  (List.range xSize).flatMap fun x => (List.range ySize).map fun y => (x, y)

/-- A double-ended queue: `true` takes the first element, `false` the last; after each call the
number of elements left. -/
def dequeRun {α : Type} : List α → List Bool → List (Option α × ℕ)
  | _, [] => []
  | l, true :: ops => (l.head?, l.tail.length) :: dequeRun l.tail ops
  | l, false :: ops => (l.getLast?, l.dropLast.length) :: dequeRun l.dropLast ops

/-! ## C51 -/

/-- positions with linear index from `f` up to `f + n` -/
def segment (ySize f n : ℕ) : List (ℕ × ℕ) :=
  (List.range' f n).map fun i => (i / ySize, i % ySize)

theorem columnMajor_eq (xSize ySize : ℕ) : columnMajor xSize ySize = segment ySize 0 (xSize * ySize) := by
  induction xSize with
  | zero => simp [columnMajor, segment]
  | succ x ih =>
    have h1 : columnMajor (x + 1) ySize =
        columnMajor x ySize ++ (List.range ySize).map fun y => (x, y) := by
      rw [columnMajor, List.range_succ, List.flatMap_append]
      simp [columnMajor]
    rw [h1, ih, segment, segment, Nat.succ_mul, ← List.range'_append_1, List.map_append]
    congr 1
    rw [List.range'_eq_map_range, List.map_map]
    apply List.map_congr_left
    intro y hy
    rw [List.mem_range] at hy
    have hpos : 0 < ySize := by omega
    simp only [Function.comp, Nat.zero_add, Prod.mk.injEq]
    rw [Nat.add_comm, Nat.add_mul_div_right _ _ hpos, Nat.add_mul_mod_self_right,
      Nat.div_eq_of_lt hy, Nat.mod_eq_of_lt hy]
    simp

theorem segment_head (ySize f n : ℕ) :
    (segment ySize f n).head? = if n = 0 then none else some (f / ySize, f % ySize) := by
  rw [segment, List.head?_map, List.head?_range']
  by_cases h : n = 0 <;> simp [h]

theorem segment_tail (ySize f n : ℕ) :
    (segment ySize f n).tail = segment ySize (f + 1) (n - 1) := by
  rw [segment, ← List.map_tail, List.tail_range', segment]

theorem segment_last (ySize f n : ℕ) :
    (segment ySize f n).getLast? =
      if n = 0 then none else some ((f + n - 1) / ySize, (f + n - 1) % ySize) := by
  cases n with
  | zero => simp [segment]
  | succ n =>
    rw [segment, List.range'_1_concat, List.map_append]
    simp

theorem segment_dropLast (ySize f n : ℕ) :
    (segment ySize f n).dropLast = segment ySize f (n - 1) := by
  cases n with
  | zero => simp [segment]
  | succ n =>
    rw [segment, List.range'_1_concat, List.map_append]
    simp [segment]

theorem segment_length (ySize f n : ℕ) : (segment ySize f n).length = n := by simp [segment]

/-- Invariant of `Positions` with the list of the positions left. -/
structure PosInv (p : Positions) (l : List (ℕ × ℕ)) : Prop where
  x_le : p.x ≤ p.revX
  y_le : p.y ≤ p.ySize
  a_le : p.afterRevY ≤ p.ySize
  lt : p.x < p.revX → p.y < p.ySize ∧ 0 < p.afterRevY
  eq : p.x = p.revX → p.y ≤ p.afterRevY
  list : l = segment p.ySize (p.x * p.ySize + p.y)
    (p.revX * p.ySize + p.afterRevY - (p.x * p.ySize + p.y))

theorem PosInv.new (xSize ySize : ℕ) : PosInv (Positions.new xSize ySize) (columnMajor xSize ySize) := by
  rw [Positions.new, columnMajor_eq]
  by_cases h : xSize = 0 ∨ ySize = 0
  · rw [if_pos h]
    refine ⟨le_rfl, le_rfl, le_rfl, fun h => by simp at h, fun _ => le_rfl, ?_⟩
    rcases h with h | h <;> simp [h, segment]
  · rw [if_neg h]
    push Not at h
    refine ⟨by simp, by simp, by simp, fun _ => by simp; omega, fun _ => by simp, ?_⟩
    simp only [Nat.zero_mul, Nat.zero_add, Nat.sub_zero]
    congr 1
    obtain ⟨k, rfl⟩ : ∃ k, xSize = k + 1 := ⟨xSize - 1, by omega⟩
    rw [Nat.add_sub_cancel, Nat.succ_mul]

theorem PosInv.finished_iff {p : Positions} {l : List (ℕ × ℕ)} (h : PosInv p l) :
    p.isFinished = true ↔ p.revX * p.ySize + p.afterRevY - (p.x * p.ySize + p.y) = 0 := by
  simp only [Positions.isFinished, decide_eq_true_eq]
  rcases h.x_le.lt_or_eq with hx | hx
  · obtain ⟨k, hk⟩ : ∃ k, p.revX = p.x + 1 + k := ⟨p.revX - p.x - 1, by omega⟩
    have := h.lt hx
    rw [hk, show (p.x + 1 + k) * p.ySize = p.x * p.ySize + p.ySize + k * p.ySize by ring]
    omega
  · have := h.eq hx
    rw [← hx]
    omega

theorem PosInv.len {p : Positions} {l : List (ℕ × ℕ)} (h : PosInv p l) : p.len = some l.length := by
  rw [Positions.len, if_neg (by have := h.x_le; omega), h.list, segment_length]
  obtain ⟨k, hk⟩ : ∃ k, p.revX = p.x + k := ⟨p.revX - p.x, by have := h.x_le; omega⟩
  simp only
  rw [hk, Nat.add_sub_cancel_left, Nat.add_mul, Nat.mul_comm p.ySize k]
  rcases Nat.eq_zero_or_pos k with hk0 | hk0
  · have := h.eq (by omega)
    rw [hk0, if_neg (by omega)]
    congr 1
    omega
  · have h1 := h.lt (by omega)
    have h2 : p.ySize ≤ k * p.ySize := Nat.le_mul_of_pos_left _ hk0
    rw [if_neg (by omega)]
    congr 1
    omega

theorem PosInv.next {p : Positions} {l : List (ℕ × ℕ)} (h : PosInv p l) :
    PosInv p.next.1 l.tail ∧ p.next.2 = l.head? := by
  have hfin := h.finished_iff
  rw [Positions.next, Positions.pos]
  by_cases hf : p.isFinished = true
  · rw [if_pos hf]
    have h0 := hfin.mp hf
    have hl : l = [] := by rw [h.list, h0]; rfl
    subst hl
    exact ⟨h, rfl⟩
  · rw [if_neg hf]
    have h0 : p.revX * p.ySize + p.afterRevY - (p.x * p.ySize + p.y) ≠ 0 := fun e => hf (hfin.mpr e)
    have hy : p.y < p.ySize := by
      rcases h.x_le.lt_or_eq with hx | hx
      · exact (h.lt hx).1
      · have := h.a_le
        rw [hx] at h0
        omega
    have hhead : l.head? = some (p.x, p.y) := by
      rw [h.list, segment_head, if_neg h0, Nat.add_comm, Nat.add_mul_div_right _ _ (by omega),
        Nat.add_mul_mod_self_right, Nat.div_eq_of_lt hy, Nat.mod_eq_of_lt hy, Nat.zero_add]
    rw [hhead, h.list, segment_tail]
    simp only
    by_cases hw : p.y + 1 = p.ySize ∧ p.revX ≠ p.x
    · rw [if_pos hw]
      have hlt : p.x < p.revX := lt_of_le_of_ne h.x_le (Ne.symm hw.2)
      have hl := h.lt hlt
      refine ⟨⟨by simp; omega, by simp, h.a_le, fun _ => ⟨by simp; omega, hl.2⟩, fun _ => by simp, ?_⟩,
        rfl⟩
      simp only
      rw [show (p.x + 1) * p.ySize + 0 = p.x * p.ySize + p.y + 1 by rw [Nat.succ_mul]; omega]
      congr 1
    · rw [if_neg hw]
      refine ⟨⟨h.x_le, hy, h.a_le, fun hlt => ⟨?_, (h.lt hlt).2⟩, fun hx => ?_, ?_⟩, rfl⟩
      · simp only at hlt ⊢
        push Not at hw
        rcases Nat.lt_or_ge (p.y + 1) p.ySize with h1 | h1
        · exact h1
        · have := hw (by omega)
          omega
      · simp only at hx ⊢
        rw [hx] at h0
        omega
      · simp only
        rw [show p.x * p.ySize + (p.y + 1) = p.x * p.ySize + p.y + 1 by ring]
        congr 1

theorem PosInv.nextBack {p : Positions} {l : List (ℕ × ℕ)} (h : PosInv p l) :
    ∃ p', p.nextBack = some (p', l.getLast?) ∧ PosInv p' l.dropLast := by
  have hfin := h.finished_iff
  rw [Positions.nextBack, Positions.revPos]
  by_cases hf : p.isFinished = true
  · rw [if_pos hf]
    have h0 := hfin.mp hf
    have hl : l = [] := by rw [h.list, h0]; rfl
    subst hl
    exact ⟨p, rfl, h⟩
  · rw [if_neg hf]
    have h0 : p.revX * p.ySize + p.afterRevY - (p.x * p.ySize + p.y) ≠ 0 := fun e => hf (hfin.mpr e)
    have ha : 0 < p.afterRevY := by
      rcases h.x_le.lt_or_eq with hx | hx
      · exact (h.lt hx).2
      · rw [hx] at h0
        omega
    have hale := h.a_le
    have hlast : l.getLast? = some (p.revX, p.afterRevY - 1) := by
      rw [h.list, segment_last, if_neg h0]
      rw [show p.x * p.ySize + p.y + (p.revX * p.ySize + p.afterRevY - (p.x * p.ySize + p.y)) - 1 =
        (p.afterRevY - 1) + p.revX * p.ySize by omega]
      rw [Nat.add_mul_div_right _ _ (by omega), Nat.add_mul_mod_self_right,
        Nat.div_eq_of_lt (by omega), Nat.mod_eq_of_lt (by omega), Nat.zero_add]
    rw [if_neg (by omega), hlast, h.list, segment_dropLast]
    simp only
    by_cases hw : p.afterRevY - 1 = 0 ∧ p.revX ≠ p.x
    · have hlt : p.x < p.revX := lt_of_le_of_ne h.x_le (Ne.symm hw.2)
      have hl := h.lt hlt
      rw [if_pos hw, if_neg (by omega)]
      refine ⟨_, rfl, ⟨by simp; omega, h.y_le, le_rfl, fun _ => ⟨hl.1, by simp; omega⟩,
        fun _ => h.y_le, ?_⟩⟩
      simp only
      obtain ⟨k, hk⟩ : ∃ k, p.revX = k + 1 := ⟨p.revX - 1, by omega⟩
      rw [hk, Nat.add_sub_cancel, Nat.succ_mul]
      congr 1
      omega
    · rw [if_neg hw]
      refine ⟨_, rfl, ⟨h.x_le, h.y_le, by simp; omega, fun hlt => ⟨(h.lt hlt).1, ?_⟩, fun hx => ?_, ?_⟩⟩
      · simp only at hlt ⊢
        push Not at hw
        rcases Nat.eq_zero_or_pos (p.afterRevY - 1) with h1 | h1
        · have := hw h1
          omega
        · exact h1
      · simp only at hx ⊢
        rw [hx] at h0
        omega
      · simp only
        congr 1
        omega

theorem PosInv.step {p : Positions} {l : List (ℕ × ℕ)} (h : PosInv p l) (op : Bool) :
    ∃ p', p.step op = some (p', if op then l.head? else l.getLast?) ∧
      PosInv p' (if op then l.tail else l.dropLast) := by
  cases op with
  | true =>
    obtain ⟨h1, h2⟩ := h.next
    exact ⟨p.next.1, by rw [Positions.step, if_pos rfl, ← h2], h1⟩
  | false =>
    obtain ⟨p', h1, h2⟩ := h.nextBack
    exact ⟨p', by rw [Positions.step, h1]; rfl, h2⟩

theorem PosInv.run {p : Positions} {l : List (ℕ × ℕ)} (h : PosInv p l) (ops : List Bool) :
    p.run ops = some (dequeRun l ops) := by
  induction ops generalizing p l with
  | nil => rfl
  | cons op ops ih =>
    obtain ⟨p', h1, h2⟩ := h.step op
    have h3 := ih h2
    have h4 := h2.len
    cases op
    · simp only [Bool.false_eq_true, if_false] at h1 h3 h4
      simp [Positions.run, h1, dequeRun, h3, h4]
    · simp only [if_true] at h1 h3 h4
      simp [Positions.run, h1, dequeRun, h3, h4]

/-- C51: for every size and every interleaving of `next` and `next_back`, the iterator behaves
like a double-ended queue holding the positions in column-major order; in particular it never
panics and `len()` is always the number of positions left. -/
theorem C51_positions (xSize ySize : ℕ) (ops : List Bool) :
    (Positions.new xSize ySize).run ops = some (dequeRun (columnMajor xSize ySize) ops) ∧
      (Positions.new xSize ySize).len = some (columnMajor xSize ySize).length :=
  ⟨(PosInv.new xSize ySize).run ops, (PosInv.new xSize ySize).len⟩

example : (Positions.new 2 2).run [true, false, true, true, false] =
    some [(some (0, 0), 3), (some (1, 1), 2), (some (0, 1), 1), (some (1, 0), 0), (none, 0)] := by
  decide +kernel

/-! ## C56 -/

namespace Array2D

variable {α : Type}

/-- The states of an array a program can reach: columns do not overlap and all elements exist. -/
def Valid (a : Array2D α) : Prop :=
  a.ySize ≤ a.stride ∧ ∀ x y, x < a.xSize → y < a.ySize → x * a.stride + y < a.data.length

/-- C56: `from_array` makes a valid array whose element `(x, y)` is number `x * y_size + y`. -/
theorem _root_.Algebraics.C56_from_array (xSize ySize : ℕ) (data : List α)
    (h : xSize * ySize = data.length) :
    ∃ a, fromArray xSize ySize data = some a ∧ a.Valid ∧ a.xSize = xSize ∧ a.ySize = ySize ∧
      ∀ x y, x < xSize → y < ySize → a.index x y = data[x * ySize + y]? := by
  refine ⟨_, by rw [fromArray, if_pos h], ⟨le_rfl, fun x y hx hy => ?_⟩, rfl, rfl, ?_⟩
  · simp only at *
    rw [← h]
    calc x * ySize + y < x * ySize + ySize := by omega
      _ = (x + 1) * ySize := by ring
      _ ≤ xSize * ySize := Nat.mul_le_mul_right _ hx
  · intro x y hx hy
    rw [index, if_pos ⟨hx, hy⟩]

/-- C56: indexing a valid array inside its bounds never panics. -/
theorem _root_.Algebraics.C56_index (a : Array2D α) (h : a.Valid) (x y : ℕ) :
    (∃ v, a.index x y = some v) ↔ x < a.xSize ∧ y < a.ySize := by
  rw [index]
  by_cases hc : x < a.xSize ∧ y < a.ySize
  · rw [if_pos hc]
    exact ⟨fun _ => hc, fun _ => ⟨_, List.getElem?_eq_getElem (h.2 x y hc.1 hc.2)⟩⟩
  · rw [if_neg hc]
    simp [hc]

/-- C56 (partial): a slice inside the bounds is a valid array of the right size showing the
elements of the original.  Missing: slices that are empty in the last direction can panic, see
`C56_slice_false`; `yStart = 0` or a nonempty slice excludes that. -/
theorem _root_.Algebraics.C56_slice_partial (a : Array2D α) (h : a.Valid) (x0 x1 y0 y1 : ℕ)
    (hx : x0 < x1) (hx1 : x1 ≤ a.xSize) (hy : y0 < y1) (hy1 : y1 ≤ a.ySize) :
    ∃ b, a.slice x0 x1 y0 y1 = some b ∧ b.Valid ∧ b.xSize = x1 - x0 ∧ b.ySize = y1 - y0 ∧
      ∀ x y, x < x1 - x0 → y < y1 - y0 → b.index x y = a.index (x0 + x) (y0 + y) := by
  have hoff := h.2 x0 y0 (by omega) (by omega)
  refine ⟨_, by rw [slice, if_pos ⟨hx.le, hx1, hy.le, hy1⟩]; simp only; rw [if_pos hoff.le],
    ⟨?_, ?_⟩, rfl, rfl, ?_⟩
  · have := h.1
    simp only
    omega
  · intro x y hx' hy'
    simp only at hx' hy' ⊢
    have := h.2 (x0 + x) (y0 + y) (by omega) (by omega)
    rw [Nat.add_mul] at this
    rw [List.length_drop]
    omega
  · intro x y hx' hy'
    rw [index, index, if_pos ⟨hx', hy'⟩, if_pos ⟨by omega, by omega⟩]
    simp only
    rw [List.getElem?_drop]
    congr 1
    ring

/-- C56 is false in full: taking the empty slice `[2..2, 1..2]` of a 2 by 3 array panics, although
the bounds are accepted. -/
theorem _root_.Algebraics.C56_slice_false :
    ∃ a : Array2D ℕ, fromArray 2 3 [0, 1, 2, 10, 11, 12] = some a ∧
      (slice a 2 2 1 2).isNone ∧ (slice a 2 2 0 2).isSome :=
  ⟨_, rfl, rfl, rfl⟩

theorem runIter_eq (a : Array2D α) {p : Positions} {l : List (ℕ × ℕ)} (h : PosInv p l) (E : List α)
    (hE : E.map some = l.map fun q => a.data[q.1 * a.stride + q.2]?) (ops : List Bool) :
    runIter p a ops = some ((dequeRun E ops).map Prod.fst) := by
  induction ops generalizing p l E with
  | nil => rfl
  | cons op ops ih =>
    obtain ⟨p', h1, h2⟩ := h.step op
    rw [runIter, h1]
    cases op with
    | true =>
      simp only [if_true, Option.bind_eq_bind, Option.bind_some] at *
      cases l with
      | nil =>
        simp only [List.map_nil, List.map_eq_nil_iff] at hE
        subst hE
        have := ih h2 [] rfl
        simp [this, dequeRun]
      | cons q l =>
        cases E with
        | nil => simp at hE
        | cons e E =>
          simp only [List.map_cons, List.cons.injEq] at hE
          have := ih h2 E hE.2
          simp [this, dequeRun, ← hE.1]
    | false =>
      simp only [Bool.false_eq_true, if_false, Option.bind_eq_bind, Option.bind_some] at *
      rcases List.eq_nil_or_concat l with rfl | ⟨l, q, rfl⟩
      · simp only [List.map_nil, List.map_eq_nil_iff] at hE
        subst hE
        have := ih h2 [] rfl
        simp [this, dequeRun]
      · rcases List.eq_nil_or_concat E with rfl | ⟨E, e, rfl⟩
        · simp at hE
        · simp only [List.concat_eq_append, List.map_append, List.map_cons, List.map_nil] at hE h2 ⊢
          have hE' := List.append_inj' hE rfl
          simp only [List.dropLast_concat] at h2
          have := ih h2 E hE'.1
          have h5 := List.head_eq_of_cons_eq hE'.2
          simp [this, dequeRun, ← h5]

/-- Invariant of the owning iterators: what is left of the data is the stretch `[offset, e)`. -/
def OwnInv (a : Array2D α) (l : List (ℕ × ℕ)) (d : IterOwned α) : Prop :=
  d.stride = a.stride ∧ l.Pairwise (fun q r => q.1 * a.stride + q.2 < r.1 * a.stride + r.2) ∧
  ∃ e, e ≤ a.data.length ∧ d.iter = (a.data.take e).drop d.offset ∧
    ∀ q ∈ l, d.offset ≤ q.1 * a.stride + q.2 ∧ q.1 * a.stride + q.2 < e

theorem runOwned_eq (a : Array2D α) {p : Positions} {l : List (ℕ × ℕ)} (h : PosInv p l)
    (d : IterOwned α) (hd : OwnInv a l d) (ops : List Bool) : runOwned p d ops = runIter p a ops := by
  induction ops generalizing p l d with
  | nil => rfl
  | cons op ops ih =>
    obtain ⟨p', h1, h2⟩ := h.step op
    obtain ⟨hs, hpw, e, he, hiter, hmem⟩ := hd
    rw [runIter, runOwned, h1]
    have hget : ∀ q ∈ l, d.iter[q.1 * a.stride + q.2 - d.offset]? =
        a.data[q.1 * a.stride + q.2]? := by
      intro q hq
      obtain ⟨m1, m2⟩ := hmem q hq
      rw [hiter, List.getElem?_drop, List.getElem?_take, Nat.add_sub_cancel' m1, if_pos m2]
    have hex : ∀ q ∈ l, ∃ v, a.data[q.1 * a.stride + q.2]? = some v := by
      intro q hq
      obtain ⟨m1, m2⟩ := hmem q hq
      exact ⟨_, List.getElem?_eq_getElem (by omega)⟩
    cases op with
    | true =>
      simp only [if_true, Option.bind_eq_bind, Option.bind_some] at *
      cases l with
      | nil =>
        simp only [List.head?_nil]
        rw [ih h2 d ⟨hs, hpw, e, he, hiter, hmem⟩]
      | cons q l =>
        simp only [List.head?_cons]
        obtain ⟨m1, m2⟩ := hmem q (List.mem_cons_self ..)
        obtain ⟨v, hv⟩ := hex q (List.mem_cons_self ..)
        rw [IterOwned.get, hs, if_neg (by omega)]
        dsimp only
        rw [hget q (List.mem_cons_self ..), hv]
        simp only [Option.bind_some]
        rw [ih h2]
        rw [List.pairwise_cons] at hpw
        refine ⟨rfl, hpw.2, e, he, ?_, fun r hr => ⟨?_, (hmem r (List.mem_cons_of_mem _ hr)).2⟩⟩
        · simp only
          rw [hiter, List.drop_drop]
        · simp only
          have := hpw.1 r hr
          omega
    | false =>
      simp only [Bool.false_eq_true, if_false, Option.bind_eq_bind, Option.bind_some] at *
      rcases List.eq_nil_or_concat l with rfl | ⟨l, q, rfl⟩
      · simp only [List.getLast?_nil]
        rw [ih h2 d ⟨hs, hpw, e, he, hiter, hmem⟩]
      · simp only [List.concat_eq_append] at *
        have hq : q ∈ l ++ [q] := by simp
        obtain ⟨m1, m2⟩ := hmem q hq
        obtain ⟨v, hv⟩ := hex q hq
        simp only [List.getLast?_concat]
        have hlen : d.iter.length = e - d.offset := by
          rw [hiter, List.length_drop, List.length_take, Nat.min_eq_left he]
        rw [IterOwned.getBack, hs, if_neg (by omega)]
        dsimp only
        rw [if_neg (by omega), hget q hq, hv]
        simp only [Option.bind_some]
        rw [ih h2]
        rw [List.dropLast_concat]
        rw [List.pairwise_append] at hpw
        refine ⟨rfl, hpw.1, q.1 * a.stride + q.2, by omega, ?_, fun r hr => ⟨?_, ?_⟩⟩
        · simp only
          rw [hiter, List.drop_take, List.take_take, List.drop_take]
          congr 1
          omega
        · exact (hmem r (by simp [hr])).1
        · exact hpw.2.2 r hr q (by simp)

theorem columnMajor_mem (xSize ySize : ℕ) (q : ℕ × ℕ) :
    q ∈ columnMajor xSize ySize ↔ q.1 < xSize ∧ q.2 < ySize := by
  obtain ⟨x, y⟩ := q
  simp [columnMajor]

theorem columnMajor_pairwise (xSize ySize stride : ℕ) (h : ySize ≤ stride) :
    (columnMajor xSize ySize).Pairwise (fun q r => q.1 * stride + q.2 < r.1 * stride + r.2) := by
  rw [columnMajor, List.pairwise_flatMap]
  constructor
  · intro x _
    rw [List.pairwise_map]
    exact List.pairwise_lt_range.imp fun h => by simpa using h
  · refine List.pairwise_lt_range.imp ?_
    intro x x' hx q hq r hr
    rw [List.mem_map] at hq hr
    obtain ⟨y, hy, rfl⟩ := hq
    obtain ⟨y', -, rfl⟩ := hr
    rw [List.mem_range] at hy
    simp only
    calc x * stride + y < x * stride + stride := by omega
      _ = (x + 1) * stride := by ring
      _ ≤ x' * stride := Nat.mul_le_mul_right _ hx
      _ ≤ x' * stride + y' := Nat.le_add_right _ _

/-- C56: for every valid array (owned or slice) and every interleaving of `next` and `next_back`,
`iter`, `iter_mut` and `into_iter` hand out the elements in column-major order from the front and
in reverse from the back, each once, without panicking. -/
theorem _root_.Algebraics.C56_iterators (a : Array2D α) (h : a.Valid) (ops : List Bool) :
    ∃ E : List α, E.map some = (columnMajor a.xSize a.ySize).map (fun q => a.index q.1 q.2) ∧
      a.iterHistory ops = some ((dequeRun E ops).map Prod.fst) ∧
      a.iterOwnedHistory ops = some ((dequeRun E ops).map Prod.fst) := by
  have hidx : ∀ q ∈ columnMajor a.xSize a.ySize,
      a.index q.1 q.2 = a.data[q.1 * a.stride + q.2]? := fun q hq => by
    rw [index, if_pos ((columnMajor_mem _ _ _).mp hq)]
  obtain ⟨E, hE⟩ : ∃ E : List α,
      E.map some = (columnMajor a.xSize a.ySize).map (fun q => a.index q.1 q.2) := by
    have key : ∀ l : List (Option α), (∀ o ∈ l, ∃ v, o = some v) → ∃ E : List α, E.map some = l := by
      intro l
      induction l with
      | nil => exact fun _ => ⟨[], rfl⟩
      | cons o l ih =>
        intro hl
        obtain ⟨v, rfl⟩ := hl o (List.mem_cons_self ..)
        obtain ⟨E, rfl⟩ := ih fun o ho => hl o (List.mem_cons_of_mem _ ho)
        exact ⟨v :: E, rfl⟩
    apply key
    intro o ho
    rw [List.mem_map] at ho
    obtain ⟨q, hq, rfl⟩ := ho
    exact (Algebraics.C56_index a h q.1 q.2).mpr ((columnMajor_mem _ _ _).mp hq)
  have h1 : a.iterHistory ops = some ((dequeRun E ops).map Prod.fst) := by
    refine runIter_eq a (PosInv.new _ _) E ?_ ops
    rw [hE]
    exact List.map_congr_left hidx
  refine ⟨E, hE, h1, ?_⟩
  rw [← h1]
  refine runOwned_eq a (PosInv.new _ _) _ ⟨rfl, columnMajor_pairwise _ _ _ h.1, a.data.length, le_rfl,
    by simp, fun q hq => ⟨Nat.zero_le _, ?_⟩⟩ ops
  have := (columnMajor_mem _ _ _).mp hq
  exact h.2 q.1 q.2 this.1 this.2

/-- Non-vacuity: a slice of a 2 by 3 array, walked from both ends. -/
example : ((fromArray 2 3 [0, 1, 2, 10, 11, 12]).bind fun a => (a.slice 0 2 1 3)).bind
    (fun b => b.iterOwnedHistory [false, true, true, false]) =
      some [some 12, some 1, some 2, some 11] := by decide +kernel

/-- C56: `swap_elements` exchanges two elements and leaves the others alone. -/
theorem _root_.Algebraics.C56_swap (a : Array2D α) (h : a.Valid) (x1 y1 x2 y2 : ℕ)
    (h1 : x1 < a.xSize ∧ y1 < a.ySize) (h2 : x2 < a.xSize ∧ y2 < a.ySize) :
    ∃ b, a.swapElements x1 y1 x2 y2 = some b ∧ b.Valid ∧ b.xSize = a.xSize ∧ b.ySize = a.ySize ∧
      ∀ x y, x < a.xSize → y < a.ySize → b.index x y =
        if (x, y) = (x1, y1) then a.index x2 y2 else if (x, y) = (x2, y2) then a.index x1 y1
        else a.index x y := by
  have hl1 := h.2 _ _ h1.1 h1.2
  have hl2 := h.2 _ _ h2.1 h2.2
  have hinj : ∀ x y x' y', y < a.ySize → y' < a.ySize →
      x * a.stride + y = x' * a.stride + y' → (x, y) = (x', y') := by
    intro x y x' y' hy hy' he
    have hs := h.1
    have hpos : 0 < a.stride := by omega
    have e1 := congrArg (· % a.stride) he
    have e2 := congrArg (· / a.stride) he
    simp only [Nat.mul_add_mod_self_right, Nat.mod_eq_of_lt (by omega : y < a.stride),
      Nat.mod_eq_of_lt (by omega : y' < a.stride)] at e1
    simp only [Nat.add_comm _ y, Nat.add_comm _ y', Nat.add_mul_div_right _ _ hpos,
      Nat.div_eq_of_lt (by omega : y < a.stride), Nat.div_eq_of_lt (by omega : y' < a.stride)] at e2
    rw [Prod.mk.injEq]
    exact ⟨by omega, e1⟩
  have i1 : a.index x1 y1 = some a.data[x1 * a.stride + y1] := by
    rw [index, if_pos h1, List.getElem?_eq_getElem hl1]
  have i2 : a.index x2 y2 = some a.data[x2 * a.stride + y2] := by
    rw [index, if_pos h2, List.getElem?_eq_getElem hl2]
  have s1 : a.set x1 y1 a.data[x2 * a.stride + y2] =
      some { a with data := a.data.set (x1 * a.stride + y1) a.data[x2 * a.stride + y2] } := by
    rw [set, if_pos ⟨h1.1, h1.2, hl1⟩]
  refine ⟨{ a with data := ((a.data.set (x1 * a.stride + y1) a.data[x2 * a.stride + y2]).set
      (x2 * a.stride + y2) a.data[x1 * a.stride + y1]) }, ?_, ⟨h.1, ?_⟩, rfl, rfl, ?_⟩
  · simp only [swapElements, i1, i2, s1, Option.bind_eq_bind, Option.bind_some]
    rw [set, if_pos ⟨h2.1, h2.2, by simpa using hl2⟩]
  · intro x y hx hy
    simpa using h.2 x y hx hy
  · intro x y hx hy
    rw [i1, i2, index, index, if_pos ⟨hx, hy⟩]
    simp only [List.getElem?_set, List.length_set]
    by_cases e2 : (x, y) = (x2, y2)
    · obtain ⟨rfl, rfl⟩ := Prod.mk.inj e2
      by_cases e1 : (x, y) = (x1, y1)
      · obtain ⟨rfl, rfl⟩ := Prod.mk.inj e1
        simp [hl2]
      · simp [e1, hl2]
    · have n2 : x2 * a.stride + y2 ≠ x * a.stride + y := fun e =>
        e2 (hinj _ _ _ _ h2.2 hy e).symm
      by_cases e1 : (x, y) = (x1, y1)
      · obtain ⟨rfl, rfl⟩ := Prod.mk.inj e1
        simp [n2, hl1]
      · have n1 : x1 * a.stride + y1 ≠ x * a.stride + y := fun e =>
          e1 (hinj _ _ _ _ h1.2 hy e).symm
        simp only [if_neg n2, if_neg n1, if_neg e1, if_neg e2]
        rw [if_pos ⟨hx, hy⟩]

end Array2D

end Algebraics
