import Verif.Lemmas.Array2DMut

/-!
Property C93: changes of a two-dimensional array through mutable slices and mutable iterators reach the
elements they name and no others.
-/

namespace Algebraics

namespace Array2D

variable {α : Type}

/-- C93: a program of changes (assignments, in-place updates, exchanges, histories of mutable iterators),
each through mutable slices nested to any depth, if it does not panic, leaves a valid array of the same
size whose elements are those the specification computes from coordinates alone: every change reaches the
elements it names, everything outside the slices keeps its value. -/
theorem _root_.Algebraics.C93_program (a b : Array2D α) (h : a.Valid) (g : Grid α) (hg : a.Shows g)
    (prog : List (List (SliceBound × SliceBound) × Edit α)) (hb : a.runEdits prog = some b) :
    b.Valid ∧ b.xSize = a.xSize ∧ b.ySize = a.ySize ∧ b.stride = a.stride ∧
      b.data.length = a.data.length ∧ b.Shows (Grid.run a.xSize a.ySize prog g) ∧
      ∀ s ∈ prog, PathFits s.2 s.1 a.xSize a.ySize := by
  induction prog generalizing a g with
  | nil =>
    simp only [runEdits, Option.some.injEq] at hb
    subst hb
    exact ⟨h, rfl, rfl, rfl, rfl, hg, by simp⟩
  | cons s prog ih =>
    obtain ⟨path, e⟩ := s
    simp only [runEdits, Option.bind_eq_bind] at hb
    obtain ⟨a', ha', hb⟩ := Option.bind_eq_some_iff.mp hb
    obtain ⟨k1, k2, k3⟩ := (through_spec e path a h g hg).1 a' ha'
    obtain ⟨r1, r2, r3, r4, r5, r6, r7⟩ := ih a' (k2.valid h) _ k3 hb
    rw [k2.1, k2.2.1] at r6 r7
    refine ⟨r1, r2.trans k2.1, r3.trans k2.2.1, r4.trans k2.2.2.1, r5.trans k2.2.2.2.1, r6, ?_⟩
    intro t ht
    rcases List.mem_cons.mp ht with rfl | ht
    · exact k1
    · exact r7 t ht

/-- C93: the program panics only if some step leaves the array or slice it is applied to, as long as no
slice is empty (an empty one can panic although its bounds are accepted, `C56_slice_owned_iff`). -/
theorem _root_.Algebraics.C93_program_runs [Nonempty α] (a : Array2D α) (h : a.Valid)
    (prog : List (List (SliceBound × SliceBound) × Edit α))
    (hn : ∀ s ∈ prog, PathNonempty s.1 a.xSize a.ySize) :
    (∃ b, a.runEdits prog = some b) ↔ ∀ s ∈ prog, PathFits s.2 s.1 a.xSize a.ySize := by
  inhabit α
  constructor
  · rintro ⟨b, hb⟩
    exact (C93_program a b h _ h.shows_index prog hb).2.2.2.2.2.2
  · intro hf
    induction prog generalizing a with
    | nil => exact ⟨a, rfl⟩
    | cons s prog ih =>
      obtain ⟨path, e⟩ := s
      obtain ⟨a', ha'⟩ := (through_spec e path a h _ h.shows_index).2
        (hf (path, e) (List.mem_cons_self ..)) (hn (path, e) (List.mem_cons_self ..))
      obtain ⟨-, k2, -⟩ := (through_spec e path a h _ h.shows_index).1 a' ha'
      obtain ⟨b, hb⟩ := ih a' (k2.valid h)
        (fun s hs => by rw [k2.1, k2.2.1]; exact hn s (List.mem_cons_of_mem _ hs))
        (fun s hs => by rw [k2.1, k2.2.1]; exact hf s (List.mem_cons_of_mem _ hs))
      exact ⟨b, by simp only [runEdits, ha', Option.bind_eq_bind, Option.bind_some, hb]⟩

/-- Non-vacuity: an assignment through a slice of a slice of a 3 by 3 array. -/
example : ((fromArray 3 3 [0, 1, 2, 10, 11, 12, 20, 21, 22]).bind fun a =>
    (a.runEdits [([(.rangeFrom 1, .range 0 3), (.index 1, .rangeFrom 1)], .set 0 1 99)])).map data =
      some [0, 1, 2, 10, 11, 12, 20, 21, 99] := by decide +kernel

/-- C93: an assignment through a mutable slice changes the one element of the parent it names. -/
theorem _root_.Algebraics.C93_slice_write (a : Array2D α) (h : a.Valid) (xb yb : SliceBound) (x y : ℕ)
    (v : α) (b : Array2D α) (hb : a.runEdits [([(xb, yb)], .set x y v)] = some b) (i j : ℕ) :
    b.index i j = if i = xb.lo + x ∧ j = yb.lo + y then some v else a.index i j := by
  have : Inhabited α := ⟨v⟩
  obtain ⟨-, h2, h3, -, -, h6, h7⟩ := C93_program a b h _ h.shows_index _ hb
  obtain ⟨hx, hy, hf⟩ := h7 _ (List.mem_singleton.mpr rfl)
  simp only [PathFits, Edit.Fits] at hf
  by_cases hc : i < a.xSize ∧ j < a.ySize
  · rw [h6 i j (by rw [h2]; exact hc.1) (by rw [h3]; exact hc.2)]
    have ha := h.shows_index i j hc.1 hc.2
    simp only [Grid.run, Grid.through, Grid.edit]
    by_cases hw : xb.lo ≤ i ∧ i < xb.hi a.xSize ∧ yb.lo ≤ j ∧ j < yb.hi a.ySize
    · rw [if_pos hw]
      by_cases he : i = xb.lo + x ∧ j = yb.lo + y
      · rw [if_pos he, if_pos ⟨by omega, by omega⟩]
      · rw [if_neg he, if_neg (by omega), ha, show xb.lo + (i - xb.lo) = i by omega,
          show yb.lo + (j - yb.lo) = j by omega]
    · rw [if_neg hw, if_neg (by omega), ← ha]
  · rw [index_none b i j (by rw [h2, h3]; exact hc), index_none a i j hc, if_neg (by omega)]

/-- Non-vacuity: the hypothesis holds for a proper slice. -/
example : ((fromArray 2 3 [0, 1, 2, 10, 11, 12]).bind fun a =>
    (a.runEdits [([(.index 1, .rangeInclusive 1 2)], .set 0 1 99)])).map data =
      some [0, 1, 2, 10, 11, 99] := by decide +kernel

/-- C93: an exchange through a mutable slice exchanges the two elements of the parent. -/
theorem _root_.Algebraics.C93_slice_swap [Nonempty α] (a : Array2D α) (h : a.Valid) (xb yb : SliceBound)
    (x1 y1 x2 y2 : ℕ) (b : Array2D α)
    (hb : a.runEdits [([(xb, yb)], .swap x1 y1 x2 y2)] = some b) (i j : ℕ) :
    b.index i j = if i = xb.lo + x1 ∧ j = yb.lo + y1 then a.index (xb.lo + x2) (yb.lo + y2)
      else if i = xb.lo + x2 ∧ j = yb.lo + y2 then a.index (xb.lo + x1) (yb.lo + y1)
      else a.index i j := by
  inhabit α
  obtain ⟨-, h2, h3, -, -, h6, h7⟩ := C93_program a b h _ h.shows_index _ hb
  obtain ⟨hx, hy, hf⟩ := h7 _ (List.mem_singleton.mpr rfl)
  simp only [PathFits, Edit.Fits] at hf
  by_cases hc : i < a.xSize ∧ j < a.ySize
  · rw [h6 i j (by rw [h2]; exact hc.1) (by rw [h3]; exact hc.2)]
    have ha := h.shows_index
    simp only [Grid.run, Grid.through, Grid.edit]
    by_cases hw : xb.lo ≤ i ∧ i < xb.hi a.xSize ∧ yb.lo ≤ j ∧ j < yb.hi a.ySize
    · rw [if_pos hw]
      by_cases he : i = xb.lo + x1 ∧ j = yb.lo + y1
      · rw [if_pos he, if_pos ⟨by omega, by omega⟩, ← ha _ _ (by omega) (by omega)]
      · rw [if_neg he, if_neg (by omega)]
        by_cases he' : i = xb.lo + x2 ∧ j = yb.lo + y2
        · rw [if_pos he', if_pos ⟨by omega, by omega⟩, ← ha _ _ (by omega) (by omega)]
        · rw [if_neg he', if_neg (by omega), show xb.lo + (i - xb.lo) = i by omega,
            show yb.lo + (j - yb.lo) = j by omega, ← ha _ _ hc.1 hc.2]
    · rw [if_neg hw, if_neg (by omega), if_neg (by omega), ← ha _ _ hc.1 hc.2]
  · rw [index_none b i j (by rw [h2, h3]; exact hc), index_none a i j hc, if_neg (by omega),
      if_neg (by omega)]

/-- Non-vacuity: an exchange of two corners of a slice. -/
example : ((fromArray 3 3 [0, 1, 2, 10, 11, 12, 20, 21, 22]).bind fun a =>
    (a.runEdits [([(.rangeFrom 1, .rangeTo 2)], .swap 0 0 1 1)])).map data =
      some [0, 1, 2, 21, 11, 12, 20, 10, 22] := by decide +kernel

/-- C93: in every history of `next` and `next_back` on `iter_mut`, each item is a reference to the element
at the position it is paired with, the positions come in column-major order from the two ends, and no two
items refer to the same element. -/
theorem _root_.Algebraics.C93_references (a : Array2D α) (h : a.Valid) (ops : List Bool) :
    ∃ refs, a.iterMutRefs ops = some refs ∧
      refs.map (Option.map Prod.fst) = (dequeRun (columnMajor a.xSize a.ySize) ops).map Prod.fst ∧
      (∀ q i, some (q, i) ∈ refs → ∃ v, a.index q.1 q.2 = some v ∧ a.data[i]? = some v) ∧
      ((refs.filterMap id).map Prod.snd).Nodup := by
  refine ⟨_, iterMutRefs_eq a h ops, ?_, ?_, ?_⟩
  · rw [List.map_map]
    conv_rhs => rw [← List.map_id ((dequeRun (columnMajor a.xSize a.ySize) ops).map Prod.fst)]
    apply List.map_congr_left
    intro o _
    cases o <;> rfl
  · intro q i hq
    obtain ⟨o, ho, hoq⟩ := List.mem_map.mp hq
    cases o with
    | none => simp at hoq
    | some r =>
      simp only [Option.map_some, Option.some.injEq, Prod.mk.injEq] at hoq
      obtain ⟨rfl, rfl⟩ := hoq
      have hr := (columnMajor_mem _ _ _).mp (dequeRun_mem _ _ _ ho)
      refine ⟨a.data[r.1 * a.stride + r.2]'(h.2 _ _ hr.1 hr.2), ?_, ?_⟩
      · rw [index, if_pos hr, List.getElem?_eq_getElem]
      · rw [List.getElem?_eq_getElem]
  · have key : ∀ Q : List (Option (ℕ × ℕ)),
        ((Q.map (Option.map fun q => (q, q.1 * a.stride + q.2))).filterMap id).map Prod.snd =
          (Q.filterMap id).map fun q => q.1 * a.stride + q.2 := by
      intro Q
      induction Q with
      | nil => rfl
      | cons o Q ih => cases o <;> simpa using ih
    rw [key]
    refine (dequeRun_nodup _ (columnMajor_nodup _ _) ops).map_on ?_
    intro q hq r hr he
    obtain ⟨o, ho, rfl⟩ := List.mem_filterMap.mp hq
    obtain ⟨o', ho', rfl⟩ := List.mem_filterMap.mp hr
    have hq' := (columnMajor_mem _ _ _).mp (dequeRun_mem _ _ _ ho)
    have hr' := (columnMajor_mem _ _ _).mp (dequeRun_mem _ _ _ ho')
    obtain ⟨e1, e2⟩ := a.address_inj h hq'.2 hr'.2 he
    exact Prod.ext e1 e2

/-- C93: writing through the items of a history on `iter_mut`: the element that call number `k` hands out
gets what the caller writes there, the elements not handed out keep their values. -/
theorem _root_.Algebraics.C93_iter_mut (a : Array2D α) (h : a.Valid) (ops : List Bool)
    (w : ℕ → ℕ × ℕ → α → α) :
    ∃ b, a.runEdits [([], .iterMut ops w)] = some b ∧ b.xSize = a.xSize ∧ b.ySize = a.ySize ∧
      (∀ k x y, ((dequeRun (columnMajor a.xSize a.ySize) ops).map Prod.fst)[k]? = some (some (x, y)) →
        b.index x y = (a.index x y).map (w k (x, y))) ∧
      ∀ x y, some (x, y) ∉ (dequeRun (columnMajor a.xSize a.ySize) ops).map Prod.fst →
        b.index x y = a.index x y := by
  obtain ⟨b, hb, he, hi⟩ := iterMut_edits a h ops w
  refine ⟨b, ?_, he.1, he.2.1, ?_, ?_⟩
  · simp only [runEdits, through, hb, Option.bind_eq_bind, Option.bind_some]
  · intro k x y hk
    have hm := (columnMajor_mem _ _ _).mp (dequeRun_mem _ _ _ (List.mem_of_getElem? hk))
    rw [hi x y hm.1 hm.2]
    have hf : callFor a.xSize a.ySize ops (x, y) = some k := by
      rw [callFor, List.findIdx?_eq_some_iff_getElem]
      obtain ⟨hl, hk'⟩ := List.getElem?_eq_some_iff.mp hk
      refine ⟨hl, by simpa using hk', fun j hj hc => ?_⟩
      have hj' : ((dequeRun (columnMajor a.xSize a.ySize) ops).map Prod.fst)[j] = some (x, y) := by
        simpa using hc
      have hn := dequeRun_nodup _ (columnMajor_nodup a.xSize a.ySize) ops
      rw [List.nodup_iff_pairwise_ne, List.pairwise_filterMap, List.pairwise_iff_getElem] at hn
      exact hn j k (by omega) hl hj (x, y) (by simpa using hj') (x, y) (by simpa using hk') rfl
    rw [hf]
  · intro x y hn
    by_cases hc : x < a.xSize ∧ y < a.ySize
    · rw [hi x y hc.1 hc.2]
      have hf : callFor a.xSize a.ySize ops (x, y) = none := by
        rw [callFor, List.findIdx?_eq_none_iff]
        intro o ho
        have : o ≠ some (x, y) := fun e => hn (e ▸ ho)
        simpa using this
      rw [hf]
    · rw [index_none b x y (by rw [he.1, he.2.1]; exact hc), index_none a x y hc]

/-- Non-vacuity: three writes through the iterator of a slice, from both ends. -/
example : ((fromArray 2 3 [0, 1, 2, 10, 11, 12]).bind fun a =>
    (a.runEdits [([(.full, .rangeFrom 1)],
      .iterMut [false, true, true] fun k q old => 1000 * k + 100 * q.1 + old)])).map data =
      some [0, 1001, 2002, 10, 11, 112] := by decide +kernel

/-- a history long enough hands out everything -/
theorem dequeRun_all {β : Type} (l : List β) (ops : List Bool) (hl : l.length ≤ ops.length) (q : β)
    (hq : q ∈ l) : some q ∈ (dequeRun l ops).map Prod.fst := by
  induction ops generalizing l with
  | nil =>
    simp only [List.length_nil, Nat.le_zero, List.length_eq_zero_iff] at hl
    subst hl
    simp at hq
  | cons op ops ih =>
    simp only [List.length_cons] at hl
    cases op with
    | true =>
      cases l with
      | nil => simp at hq
      | cons r l =>
        simp only [dequeRun, List.map_cons, List.head?_cons, List.tail_cons]
        rcases List.mem_cons.mp hq with rfl | hq
        · exact List.mem_cons_self ..
        · exact List.mem_cons_of_mem _ (ih l (by simpa using hl) hq)
    | false =>
      rcases List.eq_nil_or_concat l with rfl | ⟨l, r, rfl⟩
      · simp at hq
      · rw [List.concat_eq_append] at hq hl ⊢
        simp only [dequeRun, List.map_cons, List.getLast?_concat, List.dropLast_concat]
        rcases List.mem_append.mp hq with hq | hq
        · exact List.mem_cons_of_mem _ (ih l (by simpa using hl) hq)
        · rw [List.mem_singleton] at hq
          subst hq
          exact List.mem_cons_self ..

/-- C93: `for v in a.iter_mut() { *v = f(*v) }`, in either direction or from both ends, updates every
element once. -/
theorem _root_.Algebraics.C93_for_each (a : Array2D α) (h : a.Valid) (ops : List Bool)
    (hops : a.xSize * a.ySize ≤ ops.length) (f : α → α) :
    ∃ b, a.runEdits [([], .iterMut ops fun _ _ => f)] = some b ∧ b.xSize = a.xSize ∧
      b.ySize = a.ySize ∧ ∀ x y, b.index x y = (a.index x y).map f := by
  obtain ⟨b, hb, h1, h2, h3, -⟩ := C93_iter_mut a h ops fun _ _ => f
  refine ⟨b, hb, h1, h2, fun x y => ?_⟩
  by_cases hc : x < a.xSize ∧ y < a.ySize
  · have hm := dequeRun_all (columnMajor a.xSize a.ySize) ops (by rw [columnMajor_length]; exact hops)
      (x, y) ((columnMajor_mem _ _ _).mpr hc)
    obtain ⟨k, hk⟩ := List.mem_iff_getElem?.mp hm
    exact h3 k x y hk
  · rw [index_none b x y (by rw [h1, h2]; exact hc), index_none a x y hc]
    rfl

/-- Non-vacuity: all elements of a slice, and only these. -/
example : ((fromArray 2 3 [0, 1, 2, 10, 11, 12]).bind fun a =>
    (a.runEdits [([(.full, .rangeFrom 1)],
      .iterMut (List.replicate 4 true) fun _ _ old => old + 100)])).map data =
      some [0, 101, 102, 10, 111, 112] := by decide +kernel

end Array2D

end Algebraics
