import Verif.Lemmas.Array2DWords
import Mathlib.Data.Fintype.Pigeonhole

/-!
Property C94: two-dimensional arrays (`/repo/src/array2d.rs`) with sizes and indices in machine words, with and
without overflow checks.
-/

namespace Algebraics

/-- C94: the iterator over positions hands out the right positions for all sizes that are words, with and without
overflow checks, in every history of calls.  With the checks `len()` is right or panics; without them it is right
up to a multiple of `2^w`; and if the number of positions is a word, it is right. -/
theorem C94_positions (w : ℕ) (m : Overflow) (xSize ySize : ℕ) (hx : xSize < 2 ^ w) (hy : ySize < 2 ^ w)
    (ops : List Bool) :
    ∃ r, (Positions.new xSize ySize).runWords w m ops = some r ∧
      List.Forall₂ (fun got want => got.1 = want.1 ∧
        (∀ n, got.2 = some n → n < 2 ^ w ∧ n ≡ want.2 [MOD 2 ^ w] ∧ (m = .panics → n = want.2)) ∧
        (m = .wraps → got.2 ≠ none) ∧ (xSize * ySize < 2 ^ w → got.2 = some want.2))
        r (dequeRun (columnMajor xSize ySize) ops) := by
  obtain ⟨n1, n2, n3⟩ := Positions.new_sizes w xSize ySize hx hy
  have key : ∀ (ops : List Bool) (p : Positions) (l : List (ℕ × ℕ)), PosInv p l → p.revX < 2 ^ w → p.ySize < 2 ^ w →
      p.ySize * p.revX + p.ySize ≤ xSize * ySize → ∃ r, p.runWords w m ops = some r ∧
      List.Forall₂ (fun got want => got.1 = want.1 ∧
        (∀ n, got.2 = some n → n < 2 ^ w ∧ n ≡ want.2 [MOD 2 ^ w] ∧ (m = .panics → n = want.2)) ∧
        (m = .wraps → got.2 ≠ none) ∧ (xSize * ySize < 2 ^ w → got.2 = some want.2)) r (dequeRun l ops) := by
    intro ops
    induction ops with
    | nil => exact fun p l _ _ _ _ => ⟨[], rfl, by simp [dequeRun]⟩
    | cons op ops ih =>
      intro p l h h1 h2 h3
      obtain ⟨p', e1, e2⟩ := h.step op
      have hsz := Positions.step_sizes e1
      have hle : p'.ySize * p'.revX + p'.ySize ≤ xSize * ySize := by
        have := Nat.mul_le_mul_left p.ySize hsz.2
        rw [hsz.1]
        omega
      obtain ⟨r, hr, hf⟩ := ih p' _ e2 (by omega) (by omega) hle
      obtain ⟨l1, l2, l3⟩ := Positions.lenWords_eq w m e2 (show p'.revX < 2 ^ w by omega) (by omega)
      have hlen : (∀ n, p'.lenWords w m = some n → n < 2 ^ w ∧
            n ≡ (if op then l.tail else l.dropLast).length [MOD 2 ^ w] ∧
            (m = .panics → n = (if op then l.tail else l.dropLast).length)) ∧
          (m = .wraps → p'.lenWords w m ≠ none) ∧ (xSize * ySize < 2 ^ w →
            p'.lenWords w m = some (if op then l.tail else l.dropLast).length) := by
        refine ⟨fun n hn => ?_, ?_, fun hb => l3 (by omega)⟩
        · cases m with
          | panics =>
            rw [l1] at hn
            have hl := e2.len
            unfold Positions.len at hl
            split at hl
            · exact absurd hl (by simp)
            simp only at hl
            split at hl
            · exact absurd hl (by simp)
            injection hl with hl
            split at hn
            · injection hn with hn
              subst hn
              exact ⟨by omega, Nat.ModEq.refl _, fun _ => rfl⟩
            · exact absurd hn (by simp)
          | wraps =>
            rw [l2] at hn
            injection hn with hn
            subst hn
            exact ⟨Nat.mod_lt _ (by positivity), Nat.mod_modEq _ _, fun h => absurd h (by simp)⟩
        · rintro rfl
          rw [l2]
          simp
      refine ⟨((if op then l.head? else l.getLast?), p'.lenWords w m) :: r, ?_, ?_⟩
      · simp only [Positions.runWords, Positions.stepWords_eq w m h h1 h2, e1, Option.bind_eq_bind,
          Option.bind_some, hr]
        rfl
      · cases op with
        | true => exact List.Forall₂.cons ⟨rfl, hlen⟩ hf
        | false => exact List.Forall₂.cons ⟨rfl, hlen⟩ hf
  exact key ops _ _ (PosInv.new xSize ySize) n1 n2 n3.le

/-- C94: without the checks `len()` really goes wrong: `2^33` columns of `2^33` elements have `len()` 0 after no
call, and with the checks it panics. -/
theorem C94_len_counterexample :
    (Positions.new (2 ^ 33) (2 ^ 33)).lenWords 64 .wraps = some 0 ∧
    (Positions.new (2 ^ 33) (2 ^ 33)).lenWords 64 .panics = none ∧
    (columnMajor (2 ^ 33) (2 ^ 33)).length = 2 ^ 66 := by
  refine ⟨by decide +kernel, by decide +kernel, ?_⟩
  rw [Array2D.columnMajor_length]
  norm_num

namespace Array2D

variable {α : Type} {σ : Type}

/-- C94: `from_array` makes, with overflow checks, what it should make and nothing else, if the number of elements
is a word. -/
theorem _root_.Algebraics.C94_from_array_checks (w xSize ySize : ℕ) (data : List α) (hl : data.length < 2 ^ w) :
    fromArrayWords w .panics xSize ySize data = fromArray xSize ySize data := by
  simp only [fromArrayWords, fromArray, Overflow.word, Option.bind_eq_bind]
  by_cases h : xSize * ySize < 2 ^ w
  · rw [if_pos h]
    rfl
  · rw [if_neg h, if_neg (by omega)]
    rfl

/-- C94: without overflow checks `from_array` accepts exactly the data whose length is the product up to a multiple
of `2^w`; so it accepts what it should not exactly if the product is no word and its last bits are the length. -/
theorem _root_.Algebraics.C94_from_array_wraps (w xSize ySize : ℕ) (data : List α) (hl : data.length < 2 ^ w) :
    ((fromArrayWords w .wraps xSize ySize data).isSome ↔ xSize * ySize ≡ data.length [MOD 2 ^ w]) ∧
    (fromArrayWords w .wraps xSize ySize data ≠ fromArray xSize ySize data ↔
      2 ^ w ≤ xSize * ySize ∧ xSize * ySize ≡ data.length [MOD 2 ^ w]) := by
  have hmod : xSize * ySize % 2 ^ w = data.length ↔ xSize * ySize ≡ data.length [MOD 2 ^ w] := by
    unfold Nat.ModEq
    rw [Nat.mod_eq_of_lt hl]
  simp only [fromArrayWords, fromArray, Overflow.word, Option.bind_eq_bind, Option.bind_some]
  rw [← hmod]
  constructor
  · by_cases h : xSize * ySize % 2 ^ w = data.length <;> simp [h]
  · by_cases h : xSize * ySize % 2 ^ w = data.length
    · rw [if_pos h]
      by_cases h' : xSize * ySize = data.length
      · rw [if_pos h']
        simp
        omega
      · rw [if_neg h']
        simp only [ne_eq, reduceCtorEq, not_false_eq_true, h, and_true, true_iff]
        by_contra hc
        rw [Nat.mod_eq_of_lt (by omega)] at h
        exact h' h
    · rw [if_neg h]
      have h' : xSize * ySize ≠ data.length := fun e => h (by rw [e, Nat.mod_eq_of_lt hl])
      rw [if_neg h']
      simp [h]

/-- C94: `new` and `new_with` panic with overflow checks exactly if the number of elements is no word; otherwise
they make the right array, with and without the checks. -/
theorem _root_.Algebraics.C94_new (w : ℕ) (m : Overflow) (xSize ySize : ℕ) (v : α) (f : σ → σ × α) (s : σ) :
    (newWords w .panics xSize ySize v = none ↔ 2 ^ w ≤ xSize * ySize) ∧
    (newWithWords w .panics xSize ySize f s = none ↔ 2 ^ w ≤ xSize * ySize) ∧
    (xSize * ySize < 2 ^ w → newWords w m xSize ySize v = new xSize ySize v ∧
      newWithWords w m xSize ySize f s = newWith xSize ySize f s) := by
  have h3 : ∀ m : Overflow, xSize * ySize < 2 ^ w → newWords w m xSize ySize v = new xSize ySize v ∧
      newWithWords w m xSize ySize f s = newWith xSize ySize f s := by
    intro m h
    simp only [newWords, newWithWords, new, newWith, fromArrayWords, fromArray, m.word_eq h, Option.bind_eq_bind,
      Option.bind_some, and_self]
  refine ⟨⟨fun h => ?_, fun h => ?_⟩, ⟨fun h => ?_, fun h => ?_⟩, h3 m⟩
  · by_contra hc
    rw [(h3 .panics (by omega)).1] at h
    obtain ⟨a, ha, -⟩ := (C56_new_with (α := α) xSize ySize (fun s : Unit => (s, v)) ()).2 v
    rw [ha] at h
    exact absurd h (by simp)
  · simp only [newWords, Overflow.word, Option.bind_eq_bind]
    rw [if_neg (by omega)]
    rfl
  · by_contra hc
    rw [(h3 .panics (by omega)).2] at h
    obtain ⟨⟨a, ha, -⟩, -⟩ := C56_new_with (α := α) xSize ySize f s
    rw [ha] at h
    exact absurd h (by simp)
  · simp only [newWithWords, Overflow.word, Option.bind_eq_bind]
    rw [if_neg (by omega)]
    rfl

/-- C94: without overflow checks `new` always returns.  If the number of elements is no word, the array is broken:
there is a position inside it that cannot be read, or there are two different positions that share an element, so
that writing the one changes the other. -/
theorem _root_.Algebraics.C94_new_wraps (w xSize ySize : ℕ) (v : α) :
    ∃ a, newWords w .wraps xSize ySize v = some a ∧ a.xSize = xSize ∧ a.ySize = ySize ∧
      (2 ^ w ≤ xSize * ySize →
        (∃ x y, x < xSize ∧ y < ySize ∧ a.indexWords w .wraps x y = none) ∨
        ∃ x y x' y', x < xSize ∧ y < ySize ∧ x' < xSize ∧ y' < ySize ∧ (x, y) ≠ (x', y') ∧
          ∀ u, ∃ b, a.setWords w .wraps x y u = some b ∧ b.indexWords w .wraps x' y' = some u) := by
  refine ⟨⟨xSize, ySize, ySize, List.replicate (xSize * ySize % 2 ^ w) v⟩, ?_, rfl, rfl, fun hbig => ?_⟩
  · simp [newWords, fromArrayWords, Overflow.word]
  · by_cases hall : ∀ x y, x < xSize → y < ySize → (x * ySize % 2 ^ w + y) % 2 ^ w < xSize * ySize % 2 ^ w
    · right
      let addr : Fin xSize × Fin ySize → Fin (xSize * ySize % 2 ^ w) :=
        fun q => ⟨(q.1.1 * ySize % 2 ^ w + q.2.1) % 2 ^ w, hall _ _ q.1.2 q.2.2⟩
      have hcard : Fintype.card (Fin (xSize * ySize % 2 ^ w)) < Fintype.card (Fin xSize × Fin ySize) := by
        simp only [Fintype.card_fin, Fintype.card_prod]
        exact lt_of_lt_of_le (Nat.mod_lt _ (by positivity)) hbig
      obtain ⟨q, q', hne, he⟩ := Fintype.exists_ne_map_eq_of_card_lt addr hcard
      have he' : (q.1.1 * ySize % 2 ^ w + q.2.1) % 2 ^ w = (q'.1.1 * ySize % 2 ^ w + q'.2.1) % 2 ^ w :=
        congrArg Fin.val he
      refine ⟨q.1.1, q.2.1, q'.1.1, q'.2.1, q.1.2, q.2.2, q'.1.2, q'.2.2, fun hc => hne ?_, fun u => ?_⟩
      · simp only [Prod.mk.injEq] at hc
        exact Prod.ext (Fin.ext hc.1) (Fin.ext hc.2)
      · have hlt := hall _ _ q.1.2 q.2.2
        refine ⟨⟨xSize, ySize, ySize, (List.replicate (xSize * ySize % 2 ^ w) v).set
          ((q.1.1 * ySize % 2 ^ w + q.2.1) % 2 ^ w) u⟩, ?_, ?_⟩
        · unfold setWords
          rw [if_pos ⟨q.1.2, q.2.2⟩]
          simp only [addressWords, Overflow.word, Option.bind_eq_bind, Option.bind_some, List.length_replicate]
          rw [if_pos hlt]
        · unfold indexWords
          rw [if_pos ⟨q'.1.2, q'.2.2⟩]
          simp only [addressWords, Overflow.word, Option.bind_eq_bind, Option.bind_some]
          rw [← he', List.getElem?_set_self (by simpa using hlt)]
    · left
      push Not at hall
      obtain ⟨x, y, hx, hy, hle⟩ := hall
      refine ⟨x, y, hx, hy, ?_⟩
      unfold indexWords
      rw [if_pos ⟨hx, hy⟩]
      simp only [addressWords, Overflow.word, Option.bind_eq_bind, Option.bind_some]
      rw [List.getElem?_eq_none (by simpa using hle)]

/-- Both happen: on a machine of 64 bits, without overflow checks, an array of `2^63 + 1` columns of two elements
has two elements in all, and writing `(0, 0)` changes `(2^63, 0)`; and `2^32` columns of `2^32` elements have
none. -/
theorem _root_.Algebraics.C94_new_counterexample :
    (∃ a b : Array2D ℕ, newWords 64 .wraps (2 ^ 63 + 1) 2 7 = some a ∧ a.data = [7, 7] ∧
      a.setWords 64 .wraps 0 0 9 = some b ∧ b.indexWords 64 .wraps (2 ^ 63) 0 = some 9) ∧
    ∃ a : Array2D ℕ, newWords 64 .wraps (2 ^ 32) (2 ^ 32) 7 = some a ∧ a.xSize = 2 ^ 32 ∧
      a.indexWords 64 .wraps 0 0 = none :=
  ⟨⟨⟨2 ^ 63 + 1, 2, 2, [7, 7]⟩, ⟨2 ^ 63 + 1, 2, 2, [9, 7]⟩, rfl, rfl, rfl, by decide +kernel⟩,
    ⟨2 ^ 32, 2 ^ 32, 2 ^ 32, []⟩, rfl, rfl, by decide +kernel⟩

/-- C94: `new_with_positions` panics, with and without overflow checks, exactly if the number of elements is no
word, and otherwise makes the right array. -/
theorem _root_.Algebraics.C94_new_with_positions (w : ℕ) (m : Overflow) (xSize ySize : ℕ) (hx : xSize < 2 ^ w)
    (hy : ySize < 2 ^ w) (f : ℕ → ℕ → σ → σ × α) (s : σ) :
    (2 ^ w ≤ xSize * ySize → newWithPositionsWords w m xSize ySize f s = none) ∧
    (xSize * ySize < 2 ^ w →
      newWithPositionsWords w m xSize ySize f s = newWithPositions xSize ySize f s) := by
  obtain ⟨n1, n2, n3⟩ := Positions.new_sizes w xSize ySize hx hy
  obtain ⟨l1, l2, l3⟩ := Positions.lenWords_eq w m (PosInv.new xSize ySize) n1 n2
  have hc := collectPositions_eq f (xSize * ySize + 1) (PosInv.new xSize ySize)
    (by rw [columnMajor_length]; omega) s
  have hcl := callAll_length (fun q : ℕ × ℕ => f q.1 q.2) (columnMajor xSize ySize) s
  rw [columnMajor_length] at hcl
  constructor
  · intro hbig
    simp only [newWithPositionsWords, Option.bind_eq_bind]
    cases hlen : (Positions.new xSize ySize).lenWords w m with
    | none => rfl
    | some n =>
      rw [collectPositionsWords_eq w m f _ (PosInv.new xSize ySize) n1 n2, hc]
      simp only [Option.bind_some]
      have : fromArrayWords w m xSize ySize
          (callAll (fun q : ℕ × ℕ => f q.1 q.2) (columnMajor xSize ySize) s).2 = none := by
        simp only [fromArrayWords, Option.bind_eq_bind]
        cases m with
        | panics =>
          simp only [Overflow.word]
          rw [if_neg (by omega)]
          rfl
        | wraps =>
          simp only [Overflow.word, Option.bind_some]
          rw [hcl, if_neg]
          have := Nat.mod_lt (xSize * ySize) (show 0 < 2 ^ w by positivity)
          omega
      rw [this]
      rfl
  · intro hb
    simp only [newWithPositionsWords, newWithPositions, Option.bind_eq_bind]
    rw [l3 (by omega), collectPositionsWords_eq w m f _ (PosInv.new xSize ySize) n1 n2, hc]
    simp only [Option.bind_some, fromArrayWords, fromArray, m.word_eq hb, Option.bind_eq_bind]

/-- C94: on an array whose elements fill at most half of the address space (as the elements of any vector do, unless
they have no size), every program of changes, through mutable slices nested to any depth, does with overflow checks
exactly what it does with unlimited integers, panics included.  Without the checks the same holds for every program
in whose ranges no inclusive end and no exclusive start is the largest word. -/
theorem _root_.Algebraics.C94_program [Inhabited α] (w : ℕ) (hw : 0 < w) (m : Overflow) (xSize ySize : ℕ)
    (hx : xSize < 2 ^ w) (hy : ySize < 2 ^ w) (data : List α) (hl : data.length < 2 ^ (w - 1)) (a : Array2D α)
    (ha : fromArray xSize ySize data = some a) (prog : List (List (SliceBound × SliceBound) × Edit α))
    (hp : m = .wraps → ∀ s ∈ prog, ∀ b ∈ s.1, b.1.BelowMax w ∧ b.2.BelowMax w) :
    a.runEditsWords w m prog = a.runEdits prog := by
  obtain ⟨hv, hm⟩ := fromArray_inMemory hw hx hy hl ha
  exact runEditsWords_eq m prog hp hv hm

/-- Non-vacuity: an exchange of two elements through a slice of a slice on a machine of 64 bits. -/
example : ∃ a : Array2D ℕ, fromArray 3 2 [1, 2, 3, 4, 5, 6] = some a ∧
    (SliceBound.rangeFrom 1).BelowMax 64 ∧ (SliceBound.rangeToInclusive 1).BelowMax 64 ∧
    (a.runEditsWords 64 .wraps [([(.rangeFrom 1, .full), (.rangeToInclusive 1, .index 1)], .swap 0 0 1 0)]).map
      (·.data) = some [1, 2, 3, 6, 5, 4] :=
  ⟨_, rfl, trivial, by simp [SliceBound.BelowMax], by decide +kernel⟩

/-- C94: the same for reading: `a[(x, y)]`, slices with all kinds of bounds, and histories of `iter()`. -/
theorem _root_.Algebraics.C94_reads (w : ℕ) (hw : 0 < w) (m : Overflow) (xSize ySize : ℕ) (hx : xSize < 2 ^ w)
    (hy : ySize < 2 ^ w) (data : List α) (hl : data.length < 2 ^ (w - 1)) (a : Array2D α)
    (ha : fromArray xSize ySize data = some a) :
    (∀ x y, a.indexWords w m x y = a.index x y) ∧
    (∀ xb yb, (m = .wraps → xb.BelowMax w ∧ yb.BelowMax w) →
      (a.sliceWords w m xb yb).map Prod.snd = a.sliceBounds xb yb) ∧
    ∀ ops, runIterWords w m (Positions.new xSize ySize) a ops = a.iterHistory ops := by
  obtain ⟨hv, hm⟩ := fromArray_inMemory hw hx hy hl ha
  refine ⟨indexWords_eq m hm, fun xb yb hb => ?_, fun ops => ?_⟩
  · rw [sliceWords_eq m hm xb yb hb, sliceBounds]
    simp only [Option.bind_eq_bind, Option.pure_def]
    cases startAndEnd xb.toBounds a.xSize with
    | none => rfl
    | some p =>
      cases startAndEnd yb.toBounds a.ySize with
      | none => rfl
      | some q =>
        simp only [Option.bind_some]
        cases a.slice p.1 p.2 q.1 q.2 <;> rfl
  · have hs : a.xSize = xSize ∧ a.ySize = ySize := by
      unfold fromArray at ha
      split at ha
      · injection ha with ha
        subst ha
        exact ⟨rfl, rfl⟩
      · exact absurd ha (by simp)
    obtain ⟨n1, n2, -⟩ := Positions.new_sizes w xSize ySize hx hy
    rw [iterHistory, hs.1, hs.2]
    exact runIterWords_eq m hm (PosInv.new xSize ySize)
      (fun q hq => by rw [hs.1, hs.2]; exact (columnMajor_mem _ _ q).mp hq) n1 n2 ops

/-- C94: what happens with the largest word at an inclusive end without overflow checks: `s..=MAX` is taken for
`s..0`, so that `..=MAX` and `0..=MAX` give an empty slice where the other builds panic; an exclusive start at the
largest word is taken for no start. -/
theorem _root_.Algebraics.C94_largest_word (w size : ℕ) (p q : Bound)
    (hq : ∀ v, q = .included v → v + 1 < 2 ^ w) (hp : ∀ v, p = .excluded v → v + 1 < 2 ^ w) :
    startAndEndWords w .wraps (p, .included (2 ^ w - 1)) size = startAndEnd (p, .excluded 0) size ∧
    startAndEndWords w .wraps (.excluded (2 ^ w - 1), q) size = startAndEnd (.unbounded, q) size := by
  have hz : Overflow.wraps.word w (2 ^ w - 1 + 1) = some 0 := by
    simp only [Overflow.word]
    rw [Nat.sub_add_cancel Nat.one_le_two_pow, Nat.mod_self]
  constructor
  · cases p with
    | unbounded => simp only [startAndEndWords, startAndEnd, hz]; rfl
    | excluded v => simp only [startAndEndWords, startAndEnd, hz, Overflow.word_eq _ (hp v rfl)]; rfl
    | included v => simp only [startAndEndWords, startAndEnd, hz]; rfl
  · cases q with
    | unbounded => simp only [startAndEndWords, startAndEnd, hz]; rfl
    | excluded v => simp only [startAndEndWords, startAndEnd, hz]; rfl
    | included v => simp only [startAndEndWords, startAndEnd, hz, Overflow.word_eq _ (hq v rfl)]; rfl

/-- C94 fails for the largest word: without overflow checks a slice of all columns up to number `2^64 - 1` of an
array with two columns is an empty slice; it should panic, as it does with the checks. -/
theorem _root_.Algebraics.C94_slice_counterexample :
    ∃ a : Array2D ℕ, fromArray 2 2 [1, 2, 3, 4] = some a ∧
      (a.sliceWords 64 .wraps (.rangeToInclusive (2 ^ 64 - 1)) .full).map (fun r => (r.2.xSize, r.2.ySize)) =
        some (0, 2) ∧
      (a.sliceWords 64 .panics (.rangeToInclusive (2 ^ 64 - 1)) .full).isNone ∧
      (a.sliceBounds (.rangeToInclusive (2 ^ 64 - 1)) .full).isNone :=
  ⟨_, rfl, by decide +kernel, by decide +kernel, by decide +kernel⟩

end Array2D

end Algebraics
