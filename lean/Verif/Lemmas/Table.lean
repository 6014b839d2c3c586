import Verif.Model.Array2DDisplay
import Verif.Spec.Table
import Mathlib.Algebra.BigOperators.Intervals
import Mathlib.Tactic

/-! Lemmas about the printing of tables. -/

namespace Algebraics

namespace Array2D

theorem flatMap_range_split {β : Type} (f : ℕ → List β) (n i : ℕ) (h : i < n) :
    ∃ post, (List.range n).flatMap f = (List.range i).flatMap f ++ (f i ++ post) ∧
      (i + 1 = n ∧ post = [] ∨ ∃ q, i + 1 < n ∧ post = f (i + 1) ++ q) := by
  obtain ⟨d, rfl⟩ : ∃ d, n = i + 1 + d := ⟨n - i - 1, by omega⟩
  refine ⟨((List.range d).map (i + 1 + ·)).flatMap f, ?_, ?_⟩
  · rw [List.range_add, List.flatMap_append, List.range_succ, List.flatMap_append]
    simp
  · cases d with
    | zero => left; simp
    | succ d =>
      right
      rw [List.range_succ_eq_map]
      refine ⟨(List.map ((fun x => i + 1 + x) ∘ Nat.succ) (List.range d)).flatMap f, by omega, by simp⟩

theorem length_flatMap_range {β : Type} (f : ℕ → List β) (n : ℕ) :
    ((List.range n).flatMap f).length = ∑ j ∈ Finset.range n, (f j).length := by
  induction n with
  | zero => simp
  | succ n ih => rw [List.range_succ, List.flatMap_append, List.length_append, ih, Finset.sum_range_succ]; simp

theorem getElem?_flatMap_range {β : Type} (f : ℕ → List β) (n i k : ℕ) (h : i < n) (hk : k < (f i).length) :
    ((List.range n).flatMap f)[∑ j ∈ Finset.range i, (f j).length + k]? = (f i)[k]? := by
  obtain ⟨post, e, -⟩ := flatMap_range_split f n i h
  rw [e, ← length_flatMap_range f i, List.getElem?_append_right (by omega), Nat.add_sub_cancel_left,
    List.getElem?_append_left hk]

theorem intercalate_append {A B : List Text} (hA : A ≠ []) (hB : B ≠ []) :
    ['\n'].intercalate (A ++ B) = ['\n'].intercalate A ++ '\n' :: ['\n'].intercalate B := by
  induction A with
  | nil => exact absurd rfl hA
  | cons a A ih =>
    cases A with
    | nil =>
      obtain ⟨b, B, rfl⟩ := List.exists_cons_of_ne_nil hB
      simp [List.intercalate, List.intersperse]
    | cons a' A =>
      have := ih (by simp)
      simp only [List.intercalate, List.intersperse, List.flatten_cons, List.cons_append] at this ⊢
      rw [this]
      simp

/-- groups of lines, each printed with the line breaks inside, and a line break after each group but the last -/
theorem flatMap_groups (g : ℕ → List Text) (hg : ∀ y, g y ≠ []) (n : ℕ) (hn : 0 < n) :
    ((List.range n).flatMap fun y => ['\n'].intercalate (g y) ++ (if y = n - 1 then [] else ['\n'])) =
      ['\n'].intercalate ((List.range n).flatMap g) := by
  have key : ∀ m, 0 < m → ((List.range m).flatMap fun y => ['\n'].intercalate (g y) ++ ['\n']) =
      ['\n'].intercalate ((List.range m).flatMap g) ++ ['\n'] ∧ (List.range m).flatMap g ≠ [] := by
    intro m hm
    induction m with
    | zero => omega
    | succ m ih =>
      rw [List.range_succ, List.flatMap_append, List.flatMap_append, List.flatMap_singleton, List.flatMap_singleton]
      by_cases h0 : m = 0
      · subst h0; simpa using hg 0
      · obtain ⟨h1, h2⟩ := ih (by omega)
        refine ⟨?_, by simp [h2]⟩
        rw [h1, intercalate_append h2 (hg m)]
        simp
  obtain ⟨m, rfl⟩ : ∃ m, n = m + 1 := ⟨n - 1, by omega⟩
  rw [List.range_succ, List.flatMap_append, List.flatMap_append, List.flatMap_singleton, List.flatMap_singleton]
  rw [if_pos (by omega)]
  have e : ((List.range m).flatMap fun y => ['\n'].intercalate (g y) ++ (if y = m + 1 - 1 then [] else ['\n'])) =
      (List.range m).flatMap fun y => ['\n'].intercalate (g y) ++ ['\n'] := by
    rw [List.flatMap_def, List.flatMap_def]
    congr 1
    apply List.map_congr_left
    intro y hy
    rw [List.mem_range] at hy
    rw [if_neg (by omega)]
  rw [e]
  by_cases h0 : m = 0
  · subst h0; simp
  · obtain ⟨h1, h2⟩ := key m (by omega)
    rw [h1, intercalate_append h2 (hg m)]
    simp

theorem rowLoop_eq (alternate : Bool) (xSize : ℕ) (w : List ℕ) (n : ℕ) (iters : List (List Text)) :
    rowLoop alternate xSize w n iters =
      ['\n'].intercalate ((List.range n).map fun k => cellsLine alternate xSize w (iters.map fun l => l.drop k)) := by
  induction n generalizing iters with
  | zero => simp [rowLoop]
  | succ n ih =>
    unfold rowLoop
    rw [ih]
    have e : (List.map (fun k => cellsLine alternate xSize w (List.map (fun l => List.drop k l) (List.map List.tail iters)))
        (List.range n)) = List.map ((fun k => cellsLine alternate xSize w (List.map (fun l => List.drop k l) iters)) ∘ Nat.succ)
        (List.range n) := by
      apply List.map_congr_left
      intro k _
      simp [Function.comp_def]
    rw [e, List.range_succ_eq_map, List.map_cons, List.map_map]
    have h0 : (List.map (fun l => List.drop 0 l) iters) = iters := by simp
    rw [h0]
    by_cases hn : n = 0
    · subst hn; simp
    · rw [if_pos hn]
      have h1 := intercalate_append (A := [cellsLine alternate xSize w iters])
        (B := List.map ((fun k => cellsLine alternate xSize w (List.map (fun l => List.drop k l) iters)) ∘ Nat.succ)
          (List.range n)) (by simp) (by simpa using hn)
      rw [List.singleton_append] at h1
      rw [h1]
      simp

/-! ### the sizes -/

theorem cellSize_eq (l : List Text) : (cellSize l).2 = max l.length 1 ∧
    ∀ b, (cellSize l).1 ≤ b ↔ 1 ≤ b ∧ ∀ t ∈ l, byteLen t ≤ b := by
  have key : ∀ (l : List Text) (s : ℕ × ℕ),
      (l.foldl (fun s line => (max s.1 (byteLen line), s.2 + 1)) s).2 = s.2 + l.length ∧
      ∀ b, (l.foldl (fun s line => (max s.1 (byteLen line), s.2 + 1)) s).1 ≤ b ↔ s.1 ≤ b ∧ ∀ t ∈ l, byteLen t ≤ b := by
    intro l
    induction l with
    | nil => intro s; simp
    | cons a l ih =>
      intro s
      obtain ⟨h1, h2⟩ := ih (max s.1 (byteLen a), s.2 + 1)
      refine ⟨?_, fun b => ?_⟩
      · rw [List.foldl_cons, h1, List.length_cons]; simp only; omega
      · rw [List.foldl_cons, h2, List.forall_mem_cons, max_le_iff, and_assoc]
  obtain ⟨h1, h2⟩ := key l (1, 0)
  unfold cellSize
  refine ⟨by simp only [h1, Nat.zero_add], h2⟩

theorem getD_modify_le (l : List ℕ) (i j v b : ℕ) (hi : i < l.length) :
    (l.modify j (max · v)).getD i 0 ≤ b ↔ l.getD i 0 ≤ b ∧ (j = i → v ≤ b) := by
  simp only [List.getD_eq_getElem?_getD, List.getElem?_modify]
  rw [List.getElem?_eq_getElem hi]
  by_cases h : j = i
  · simp [h]
  · simp [h]

theorem measureCell_fold (cells : ℕ → ℕ → List Text) (L : List (ℕ × ℕ)) (s : TableSize) :
    let r := L.foldl (fun s p => measureCell cells s p.1 p.2) s
    r.rowHeights.length = s.rowHeights.length ∧ r.colWidths.length = s.colWidths.length ∧
    (r.anyMultiline = true ↔ s.anyMultiline = true ∨ ∃ p ∈ L, 1 < (cells p.1 p.2).length) ∧
    (∀ x < s.colWidths.length, ∀ b, r.colWidths.getD x 0 ≤ b ↔
      s.colWidths.getD x 0 ≤ b ∧ ∀ p ∈ L, p.1 = x → (cellSize (cells p.1 p.2)).1 ≤ b) ∧
    (∀ y < s.rowHeights.length, ∀ b, r.rowHeights.getD y 0 ≤ b ↔
      s.rowHeights.getD y 0 ≤ b ∧ ∀ p ∈ L, p.2 = y → (cellSize (cells p.1 p.2)).2 ≤ b) := by
  induction L generalizing s with
  | nil => simp
  | cons p L ih =>
    have h := ih (measureCell cells s p.1 p.2)
    simp only [List.foldl_cons] at h ⊢
    obtain ⟨h1, h2, h3, h4, h5⟩ := h
    have l1 : (measureCell cells s p.1 p.2).rowHeights.length = s.rowHeights.length := by simp [measureCell]
    have l2 : (measureCell cells s p.1 p.2).colWidths.length = s.colWidths.length := by simp [measureCell]
    refine ⟨h1.trans l1, h2.trans l2, ?_, fun x hx b => ?_, fun y hy b => ?_⟩
    · rw [h3]
      have : (1 < (cellSize (cells p.1 p.2)).2) ↔ 1 < (cells p.1 p.2).length := by
        rw [(cellSize_eq _).1]; omega
      simp [measureCell, this, or_assoc]
    · rw [h4 x (by omega) b]
      simp only [measureCell, getD_modify_le _ _ _ _ _ hx, List.forall_mem_cons, and_assoc]
    · rw [h5 y (by omega) b]
      simp only [measureCell, getD_modify_le _ _ _ _ _ hy, List.forall_mem_cons, and_assoc]

theorem measure_eq (cells : ℕ → ℕ → List Text) (xs ys : ℕ) (hx : 0 < xs) (hy : 0 < ys) :
    (measure cells xs ys).rowHeights.length = ys ∧ (measure cells xs ys).colWidths.length = xs ∧
    ((measure cells xs ys).anyMultiline = true ↔ (Table.mk xs ys cells).Multiline) ∧
    (∀ x < xs, (measure cells xs ys).colWidths.getD x 0 = (Table.mk xs ys cells).width x) ∧
    (∀ y < ys, (measure cells xs ys).rowHeights.getD y 0 = (Table.mk xs ys cells).height y) := by
  have e : measure cells xs ys = ((List.range ys).flatMap fun y => (List.range xs).map fun x => (x, y)).foldl
      (fun s p => measureCell cells s p.1 p.2) ⟨List.replicate ys 0, List.replicate xs 0, false⟩ := by
    unfold measure
    rw [List.foldl_flatMap]
    simp only [List.foldl_map]
  have h := measureCell_fold cells ((List.range ys).flatMap fun y => (List.range xs).map fun x => (x, y))
    ⟨List.replicate ys 0, List.replicate xs 0, false⟩
  rw [← e] at h
  have mem : ∀ p : ℕ × ℕ, p ∈ ((List.range ys).flatMap fun y => (List.range xs).map fun x => (x, y)) ↔ p.1 < xs ∧ p.2 < ys := by
    rintro ⟨x, y⟩
    simp only [List.mem_flatMap, List.mem_map, List.mem_range, Prod.mk.injEq]
    constructor
    · rintro ⟨y', h1, x', h2, rfl, rfl⟩; exact ⟨h2, h1⟩
    · rintro ⟨h1, h2⟩; exact ⟨y, h2, x, h1, rfl, rfl⟩
  simp only [mem, List.length_replicate] at h
  obtain ⟨h1, h2, h3, h4, h5⟩ := h
  refine ⟨h1, h2, ?_, fun x hx' => ?_, fun y hy' => ?_⟩
  · rw [h3]
    unfold Table.Multiline
    constructor
    · rintro (h | ⟨p, ⟨a, b⟩, c⟩)
      · simp at h
      · exact ⟨p.1, a, p.2, b, c⟩
    · rintro ⟨x, a, y, b, c⟩; exact Or.inr ⟨(x, y), ⟨a, b⟩, c⟩
  · apply eq_of_forall_ge_iff
    intro b
    rw [h4 x hx' b]
    unfold Table.width
    rw [max_le_iff, Finset.sup_le_iff]
    have : (List.replicate xs 0).getD x 0 ≤ b := by
      simp [List.getD_eq_getElem?_getD, hx']
    constructor
    · rintro ⟨-, h⟩
      have h0 := ((cellSize_eq _).2 b).1 (h (x, 0) ⟨hx', hy⟩ rfl)
      refine ⟨h0.1, fun y hy' => Finset.sup_le fun k hk => ?_⟩
      rw [Finset.mem_range] at hy' hk
      have h1 := ((cellSize_eq _).2 b).1 (h (x, y) ⟨hx', hy'⟩ rfl)
      apply h1.2
      simp only at hk ⊢
      unfold Table.line
      simp only
      rw [List.getElem?_eq_getElem hk]
      exact List.getElem_mem hk
    · rintro ⟨h1, h2⟩
      refine ⟨this, ?_⟩
      rintro ⟨x', y⟩ ⟨hx'', hy'⟩ rfl
      rw [(cellSize_eq _).2]
      refine ⟨h1, fun t ht => ?_⟩
      obtain ⟨k, hk, rfl⟩ := List.getElem_of_mem ht
      have h3 := h2 y (Finset.mem_range.2 hy')
      rw [Finset.sup_le_iff] at h3
      have h4 := h3 k (Finset.mem_range.2 hk)
      unfold Table.line at h4
      simp only [List.getElem?_eq_getElem hk, Option.getD_some] at h4
      exact h4
  · apply eq_of_forall_ge_iff
    intro b
    rw [h5 y hy' b]
    unfold Table.height
    rw [max_le_iff, Finset.sup_le_iff]
    have : (List.replicate ys 0).getD y 0 ≤ b := by
      simp [List.getD_eq_getElem?_getD, hy']
    constructor
    · rintro ⟨-, h⟩
      refine ⟨?_, fun x hx' => ?_⟩
      · have h0 := h (0, y) ⟨hx, hy'⟩ rfl
        rw [(cellSize_eq _).1] at h0
        omega
      · rw [Finset.mem_range] at hx'
        have h0 := h (x, y) ⟨hx', hy'⟩ rfl
        rw [(cellSize_eq _).1] at h0
        exact (le_max_left _ _).trans h0
    · rintro ⟨h1, h2⟩
      refine ⟨this, ?_⟩
      rintro ⟨x, y'⟩ ⟨hx', hy''⟩ rfl
      rw [(cellSize_eq _).1]
      exact max_le (h2 x (Finset.mem_range.2 hx')) h1

/-! ### the lines -/

/-- one line of a row of cells, from the table -/
def tableLine (alternate : Bool) (t : Table) (y k : ℕ) : Text :=
  (if alternate then [] else ['[']) ++
    ((List.range t.columns).flatMap fun x =>
      (if alternate then ['|'] else []) ++ ([' '] ++ Table.padded (t.line x y k) (t.width x) ++ [' '])) ++
    (if alternate then ['|'] else [']'])

/-- the line between two rows -/
def tableRule (t : Table) : Text :=
  ((List.range t.columns).flatMap fun x => '+' :: List.replicate (t.width x + 2) '-') ++ ['+']

/-- the lines a row of cells takes -/
def rowLines (alternate : Bool) (t : Table) (extra : ℕ) (y : ℕ) : List Text :=
  (List.range (t.height y + if y + 1 = t.rows then 0 else extra)).map (tableLine alternate t y) ++
    (if alternate then [tableRule t] else [])

theorem list_eq_map_getD (l : List ℕ) : l = (List.range l.length).map fun i => l.getD i 0 := by
  apply List.ext_getElem
  · simp
  · intro i h1 h2
    simp [List.getElem?_eq_getElem h1]

theorem separatorLine_eq (cells : ℕ → ℕ → List Text) (xs ys : ℕ) (hx : 0 < xs) (hy : 0 < ys) :
    separatorLine (measure cells xs ys).colWidths = tableRule ⟨xs, ys, cells⟩ := by
  obtain ⟨-, h2, -, h4, -⟩ := measure_eq cells xs ys hx hy
  unfold separatorLine tableRule
  rw [list_eq_map_getD (measure cells xs ys).colWidths, h2, List.flatMap_map, List.flatMap_def, List.flatMap_def]
  congr 2
  apply List.map_congr_left
  intro x hx'
  rw [List.mem_range] at hx'
  rw [h4 x hx']
  have : ∀ n, List.replicate (n + 2) '-' = '-' :: (List.replicate n '-' ++ ['-']) := by
    intro n
    rw [List.replicate_succ, List.replicate_succ']
  rw [this]
  rfl

theorem cellsLine_eq (alternate : Bool) (cells : ℕ → ℕ → List Text) (xs ys : ℕ) (hx : 0 < xs) (hy : 0 < ys) (y k : ℕ) :
    cellsLine alternate xs (measure cells xs ys).colWidths
      (((List.range xs).map fun x => cells x y).map fun l => l.drop k) = tableLine alternate ⟨xs, ys, cells⟩ y k := by
  obtain ⟨-, -, -, h4, -⟩ := measure_eq cells xs ys hx hy
  unfold cellsLine tableLine
  rw [List.flatMap_def, List.flatMap_def]
  congr 3
  apply List.map_congr_left
  intro x hx'
  rw [List.mem_range] at hx'
  rw [h4 x hx']
  have : ((List.map (fun l => List.drop k l) (List.map (fun x => cells x y) (List.range xs))).getD x []).headD [] =
      (Table.mk xs ys cells).line x y k := by
    simp only [List.getD_eq_getElem?_getD, List.getElem?_map, List.getElem?_range hx', Option.map_some,
      Option.getD_some, List.headD_eq_head?_getD, List.head?_drop, Table.line]
  rw [this]
  rfl

theorem displayText_eq (alternate : Bool) (cells : ℕ → ℕ → List Text) (xs ys : ℕ) (hx : 0 < xs) (hy : 0 < ys)
    (extra : ℕ) (he : extra = if alternate = false ∧ (measure cells xs ys).anyMultiline = true then 1 else 0) :
    displayText alternate cells xs ys = ['\n'].intercalate
      ((if alternate then [tableRule ⟨xs, ys, cells⟩] else []) ++
        (List.range ys).flatMap (rowLines alternate ⟨xs, ys, cells⟩ extra)) := by
  have h5 := (measure_eq cells xs ys hx hy).2.2.2.2
  have hg : ∀ y, rowLines alternate ⟨xs, ys, cells⟩ extra y ≠ [] := by
    intro y h
    have h1 := congrArg List.length h
    unfold rowLines at h1
    simp only [List.length_append, List.length_map, List.length_range, List.length_nil] at h1
    have : 1 ≤ (Table.mk xs ys cells).height y := le_max_left _ _
    omega
  have hr : ∀ y ∈ List.range ys, rowText alternate cells xs ys (measure cells xs ys) y =
      ['\n'].intercalate (rowLines alternate ⟨xs, ys, cells⟩ extra y) ++ (if y = ys - 1 then [] else ['\n']) := by
    intro y hy'
    rw [List.mem_range] at hy'
    unfold rowText rowLines
    simp only
    rw [rowLoop_eq, h5 y hy']
    have e1 : (if (!alternate && (measure cells xs ys).anyMultiline && !decide (y = ys - 1)) = true then 1 else 0) =
        if y + 1 = ys then 0 else extra := by
      subst he
      by_cases h1 : y + 1 = ys
      · have : y = ys - 1 := by omega
        rw [if_pos h1, decide_eq_true this]
        simp
      · have : ¬ y = ys - 1 := by omega
        cases alternate <;> simp [h1, this]
    rw [e1]
    have e2 : (fun k => cellsLine alternate xs (measure cells xs ys).colWidths
        (List.map (fun l => List.drop k l) (List.map (fun x => cells x y) (List.range xs)))) =
        tableLine alternate ⟨xs, ys, cells⟩ y := by
      funext k
      exact cellsLine_eq alternate cells xs ys hx hy y k
    rw [e2, separatorLine_eq cells xs ys hx hy]
    have hne : List.map (tableLine alternate ⟨xs, ys, cells⟩ y)
        (List.range ((Table.mk xs ys cells).height y + if y + 1 = ys then 0 else extra)) ≠ [] := by
      intro h
      have h1 := congrArg List.length h
      simp only [List.length_map, List.length_range, List.length_nil] at h1
      have : 1 ≤ (Table.mk xs ys cells).height y := le_max_left _ _
      omega
    cases alternate
    · simp
    · simp only [if_true]
      rw [intercalate_append hne (by simp)]
      simp
  unfold displayText
  rw [if_neg (by omega)]
  simp only
  have hf : (List.range ys).flatMap (rowText alternate cells xs ys (measure cells xs ys)) =
      (List.range ys).flatMap fun y => ['\n'].intercalate (rowLines alternate ⟨xs, ys, cells⟩ extra y) ++
        (if y = ys - 1 then [] else ['\n']) := by
    rw [List.flatMap_def, List.flatMap_def]
    congr 1
    exact List.map_congr_left hr
  rw [hf, flatMap_groups _ hg ys hy, separatorLine_eq cells xs ys hx hy]
  cases alternate
  · simp
  · simp only [if_true]
    rw [intercalate_append (by simp) (fun h => ?_)]
    · simp
    · rw [List.flatMap_eq_nil_iff] at h
      exact hg 0 (h 0 (List.mem_range.2 hy))

theorem length_le_bytes (l : Text) : l.length ≤ Table.bytes l := by
  unfold Table.bytes
  induction l with
  | nil => simp
  | cons a l ih =>
    have := Char.utf8Size_pos a
    simp only [List.length_cons, List.map_cons, List.sum_cons]
    omega

theorem line_le_width (t : Table) (x y k : ℕ) (hy : y < t.rows) : (t.line x y k).length ≤ t.width x := by
  by_cases hk : k < (t.cell x y).length
  · refine (length_le_bytes _).trans (le_trans ?_ (le_max_right _ _))
    refine le_trans ?_ (Finset.le_sup (f := fun y => (Finset.range (t.cell x y).length).sup fun k =>
      Table.bytes (t.line x y k)) (Finset.mem_range.2 hy))
    exact Finset.le_sup (f := fun k => Table.bytes (t.line x y k)) (Finset.mem_range.2 hk)
  · have : t.line x y k = [] := by
      unfold Table.line
      rw [List.getElem?_eq_none (by omega)]
      rfl
    rw [this]; simp

theorem length_padded (t : Table) (x y k : ℕ) (hy : y < t.rows) :
    (Table.padded (t.line x y k) (t.width x)).length = t.width x := by
  have := line_le_width t x y k hy
  unfold Table.padded
  rw [List.length_append, List.length_replicate]
  omega

end Array2D

end Algebraics
