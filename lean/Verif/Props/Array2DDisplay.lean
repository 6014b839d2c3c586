import Verif.Lemmas.Table
import Verif.Props.Array2D

/-!
# C80: arrays are printed as tables in which everything is in line

`Spec/Table.lean` says how wide the columns and how high the rows are.
-/

namespace Algebraics

open Array2D

/-- The table of the lines of the elements of an array. -/
def Array2D.table {α : Type} (text : α → Text) (lines : Text → List Text) (a : Array2D α) : Table :=
  ⟨a.xSize, a.ySize, fun x y => ((a.index x y).map fun v => lines (text v)).getD []⟩

namespace Array2D

theorem display_eq {α : Type} (alternate : Bool) (text : α → Text) (lines : Text → List Text) (a : Array2D α) (ha : a.Valid) :
    a.display alternate text lines = some (displayText alternate (a.table text lines).cell a.xSize a.ySize) := by
  unfold display
  rw [if_pos]
  · rfl
  · intro x hx y hy
    have := ha.2 x y hx hy
    unfold index
    rw [if_pos ⟨hx, hy⟩, List.getElem?_eq_getElem this]
    rfl

theorem line_no_newline {α : Type} (text : α → Text) (lines : Text → List Text) (hl : ∀ s, ∀ l ∈ lines s, '\n' ∉ l)
    (a : Array2D α) (x y k : ℕ) : '\n' ∉ (a.table text lines).line x y k := by
  unfold Table.line
  intro h
  cases e : ((a.table text lines).cell x y)[k]? with
  | none => rw [e] at h; simp at h
  | some l =>
    rw [e] at h
    have hm := List.mem_of_getElem? e
    unfold table at hm
    simp only at hm
    cases ei : a.index x y with
    | none => rw [ei] at hm; simp at hm
    | some v =>
      rw [ei] at hm
      exact hl _ _ hm h

theorem tableLine_facts (alternate : Bool) (t : Table) (hl : ∀ x y k, '\n' ∉ t.line x y k) (y k : ℕ) (hy : y < t.rows) :
    '\n' ∉ tableLine alternate t y k ∧
    (tableLine alternate t y k).length =
      if alternate then ∑ x ∈ Finset.range t.columns, (t.width x + 3) + 1
      else ∑ x ∈ Finset.range t.columns, (t.width x + 2) + 2 := by
  constructor
  · unfold tableLine
    cases alternate <;> simp [Table.padded, hl, List.mem_replicate]
  · unfold tableLine
    have : ∀ x, (Table.padded (t.line x y k) (t.width x)).length = t.width x := fun x => length_padded t x y k hy
    cases alternate
    · simp only [Bool.false_eq_true, if_false, List.length_append, List.length_cons, List.length_nil,
        length_flatMap_range, this]
      have : ∀ x, (0 + (0 + 1 + t.width x + (0 + 1))) = t.width x + 2 := fun x => by omega
      simp only [this]
      omega
    · simp only [if_true, List.length_append, List.length_cons, List.length_nil, length_flatMap_range, this]
      have : ∀ x, (0 + 1 + (0 + 1 + t.width x + (0 + 1))) = t.width x + 3 := fun x => by omega
      simp only [this]
      omega

theorem tableRule_facts (t : Table) : '\n' ∉ tableRule t ∧
    (tableRule t).length = ∑ x ∈ Finset.range t.columns, (t.width x + 3) + 1 := by
  constructor
  · unfold tableRule
    simp [List.mem_replicate]
  · unfold tableRule
    rw [List.length_append, length_flatMap_range]
    simp [add_assoc]

end Array2D

/-- C80: the alternate form is a box. The lines of the text are the rows of cells with a rule above, between and
below them, all equally long. Every line of every cell is in its place, between bars, filled up with spaces to the
width of its column; nothing is cut off; and the rules have crossings exactly at the bars. -/
theorem C80_alternate {α : Type} (text : α → Text) (lines : Text → List Text) (hl : ∀ s, ∀ l ∈ lines s, '\n' ∉ l)
    (a : Array2D α) (ha : a.Valid) (hx : 0 < a.xSize) (hy : 0 < a.ySize) :
    let t := a.table text lines
    ∃ rows : List Text, a.display true text lines = some (['\n'].intercalate rows) ∧
      rows.length = 1 + ∑ y ∈ Finset.range a.ySize, (t.height y + 1) ∧
      (∀ r ∈ rows, '\n' ∉ r ∧ r.length = ∑ x ∈ Finset.range a.xSize, (t.width x + 3) + 1) ∧
      (∀ x < a.xSize, ∀ y < a.ySize, ∀ k < t.height y, (t.line x y k).length ≤ t.width x ∧ ∃ before after,
        rows[1 + ∑ j ∈ Finset.range y, (t.height j + 1) + k]? =
          some (before ++ "| ".toList ++ Table.padded (t.line x y k) (t.width x) ++ " |".toList ++ after) ∧
        before.length = ∑ i ∈ Finset.range x, (t.width i + 3)) ∧
      ∀ x < a.xSize, ∀ y ≤ a.ySize, ∃ before after,
        rows[∑ j ∈ Finset.range y, (t.height j + 1)]? =
          some (before ++ "+".toList ++ List.replicate (t.width x + 2) '-' ++ "+".toList ++ after) ∧
        before.length = ∑ i ∈ Finset.range x, (t.width i + 3) := by
  intro t
  have hnl := line_no_newline text lines hl a
  have hrow : t.rows = a.ySize := rfl
  have hcol : t.columns = a.xSize := rfl
  have hlen : ∀ y, (rowLines true t 0 y).length = t.height y + 1 := by
    intro y; simp [rowLines]
  refine ⟨tableRule t :: (List.range a.ySize).flatMap (rowLines true t 0), ?_, ?_, ?_, ?_, ?_⟩
  · rw [display_eq true text lines a ha, displayText_eq true t.cell a.xSize a.ySize hx hy 0 (by simp)]
    rfl
  · rw [List.length_cons, length_flatMap_range]
    simp only [hlen]
    omega
  · intro r hr
    rw [List.mem_cons, List.mem_flatMap] at hr
    rcases hr with rfl | ⟨y, hy', hr⟩
    · exact tableRule_facts t
    · rw [List.mem_range] at hy'
      unfold rowLines at hr
      simp only [if_true, List.mem_append, List.mem_map, List.mem_singleton] at hr
      rcases hr with ⟨k, -, rfl⟩ | rfl
      · exact tableLine_facts true t hnl y k hy'
      · exact tableRule_facts t
  · intro x hx' y hy' k hk
    refine ⟨line_le_width t x y k hy', ?_⟩
    have e1 : (tableRule t :: (List.range a.ySize).flatMap (rowLines true t 0))[1 + ∑ j ∈ Finset.range y, (t.height j + 1) + k]? =
        some (tableLine true t y k) := by
      have h := getElem?_flatMap_range (rowLines true t 0) a.ySize y k hy' (by rw [hlen]; omega)
      simp only [hlen] at h
      rw [show 1 + ∑ j ∈ Finset.range y, (t.height j + 1) + k = (∑ j ∈ Finset.range y, (t.height j + 1) + k) + 1 by omega,
        List.getElem?_cons_succ, h]
      unfold rowLines
      rw [List.getElem?_append_left (by simp; omega)]
      simp [List.getElem?_range, hk]
    rw [e1]
    obtain ⟨post, h1, h2⟩ := flatMap_range_split (fun x => ['|'] ++ ([' '] ++ Table.padded (t.line x y k) (t.width x) ++ [' ']))
      t.columns x hx'
    have e2 : tableLine true t y k = (List.range x).flatMap
        (fun x => ['|'] ++ ([' '] ++ Table.padded (t.line x y k) (t.width x) ++ [' '])) ++
        ("| ".toList ++ Table.padded (t.line x y k) (t.width x) ++ [' ']) ++ (post ++ ['|']) := by
      unfold tableLine
      simp only [if_true]
      rw [h1]
      simp
    have e3 : ∃ q, post ++ ['|'] = '|' :: q := by
      rcases h2 with ⟨-, rfl⟩ | ⟨q, -, rfl⟩
      · exact ⟨[], rfl⟩
      · exact ⟨_, rfl⟩
    obtain ⟨q, hq⟩ := e3
    refine ⟨(List.range x).flatMap (fun x => ['|'] ++ ([' '] ++ Table.padded (t.line x y k) (t.width x) ++ [' '])), q, ?_, ?_⟩
    · rw [e2, hq]
      simp
    · rw [length_flatMap_range]
      apply Finset.sum_congr rfl
      intro i _
      have := length_padded t i y k hy'
      simp only [List.length_append, List.length_cons, List.length_nil, this]
      omega
  · intro x hx' y hy'
    have e1 : (tableRule t :: (List.range a.ySize).flatMap (rowLines true t 0))[∑ j ∈ Finset.range y, (t.height j + 1)]? =
        some (tableRule t) := by
      cases y with
      | zero => simp
      | succ y =>
        have h := getElem?_flatMap_range (rowLines true t 0) a.ySize y (t.height y) (by omega) (by rw [hlen]; omega)
        simp only [hlen] at h
        rw [Finset.sum_range_succ, ← add_assoc, List.getElem?_cons_succ, h]
        unfold rowLines
        rw [List.getElem?_append_right (by simp)]
        simp
    rw [e1]
    obtain ⟨post, h1, h2⟩ := flatMap_range_split (fun x => '+' :: List.replicate (t.width x + 2) '-') t.columns x hx'
    have e2 : tableRule t = (List.range x).flatMap (fun x => '+' :: List.replicate (t.width x + 2) '-') ++
        ("+".toList ++ List.replicate (t.width x + 2) '-') ++ (post ++ ['+']) := by
      unfold tableRule
      rw [h1]
      simp
    have e3 : ∃ q, post ++ ['+'] = '+' :: q := by
      rcases h2 with ⟨-, rfl⟩ | ⟨q, -, rfl⟩
      · exact ⟨[], rfl⟩
      · exact ⟨_, rfl⟩
    obtain ⟨q, hq⟩ := e3
    refine ⟨_, q, by rw [e2, hq]; simp only [List.append_assoc]; rfl, ?_⟩
    rw [length_flatMap_range]
    apply Finset.sum_congr rfl
    intro i _
    simp

/-- C80: the plain form has brackets around every line, all lines are equally long, and every line of every cell is in
its place. If some cell has several lines, there is an empty line after every row but the last. -/
theorem C80_plain {α : Type} (text : α → Text) (lines : Text → List Text) (hl : ∀ s, ∀ l ∈ lines s, '\n' ∉ l)
    (a : Array2D α) (ha : a.Valid) (hx : 0 < a.xSize) (hy : 0 < a.ySize) (gap : ℕ)
    (hg : (a.table text lines).Multiline ∧ gap = 1 ∨ ¬ (a.table text lines).Multiline ∧ gap = 0) :
    let t := a.table text lines
    ∃ rows : List Text, a.display false text lines = some (['\n'].intercalate rows) ∧
      rows.length + gap = ∑ y ∈ Finset.range a.ySize, (t.height y + gap) ∧
      (∀ r ∈ rows, '\n' ∉ r ∧ r.length = ∑ x ∈ Finset.range a.xSize, (t.width x + 2) + 2 ∧
        r.head? = some '[' ∧ r.getLast? = some ']') ∧
      ∀ x < a.xSize, ∀ y < a.ySize, ∀ k < t.height y + (if y + 1 = a.ySize then 0 else gap),
        (t.line x y k).length ≤ t.width x ∧ ∃ before after,
        rows[∑ j ∈ Finset.range y, (t.height j + gap) + k]? =
          some ("[".toList ++ before ++ " ".toList ++ Table.padded (t.line x y k) (t.width x) ++ " ".toList ++ after) ∧
        before.length = ∑ i ∈ Finset.range x, (t.width i + 2) := by
  intro t
  have hnl := line_no_newline text lines hl a
  have hrow : t.rows = a.ySize := rfl
  have hcol : t.columns = a.xSize := rfl
  have hlen : ∀ y, (rowLines false t gap y).length = t.height y + if y + 1 = a.ySize then 0 else gap := by
    intro y; simp [rowLines, hrow]
  have hsum : ∀ y < a.ySize, ∑ j ∈ Finset.range y, (rowLines false t gap j).length = ∑ j ∈ Finset.range y, (t.height j + gap) := by
    intro y hy'
    apply Finset.sum_congr rfl
    intro j hj
    rw [Finset.mem_range] at hj
    rw [hlen, if_neg (by omega)]
  refine ⟨(List.range a.ySize).flatMap (rowLines false t gap), ?_, ?_, ?_, ?_⟩
  · rw [display_eq false text lines a ha, displayText_eq false t.cell a.xSize a.ySize hx hy gap]
    · rfl
    · have h3 := (measure_eq t.cell a.xSize a.ySize hx hy).2.2.1
      rcases hg with ⟨h, rfl⟩ | ⟨h, rfl⟩
      · rw [if_pos ⟨rfl, h3.2 h⟩]
      · rw [if_neg (fun h' => h (h3.1 h'.2))]
  · rw [length_flatMap_range]
    obtain ⟨n, hn⟩ : ∃ n, a.ySize = n + 1 := ⟨a.ySize - 1, by omega⟩
    have h1 := hsum n (by omega)
    rw [hn, Finset.sum_range_succ, Finset.sum_range_succ, h1, hlen, if_pos (by omega)]
    omega
  · intro r hr
    rw [List.mem_flatMap] at hr
    obtain ⟨y, hy', hr⟩ := hr
    rw [List.mem_range] at hy'
    unfold rowLines at hr
    simp only [Bool.false_eq_true, if_false, List.append_nil, List.mem_map] at hr
    obtain ⟨k, -, rfl⟩ := hr
    refine ⟨(tableLine_facts false t hnl y k hy').1, (tableLine_facts false t hnl y k hy').2, ?_, ?_⟩
    · simp [tableLine]
    · unfold tableLine
      simp only [Bool.false_eq_true, if_false]
      rw [List.getLast?_append]
      rfl
  · intro x hx' y hy' k hk
    refine ⟨line_le_width t x y k hy', ?_⟩
    have e1 : ((List.range a.ySize).flatMap (rowLines false t gap))[∑ j ∈ Finset.range y, (t.height j + gap) + k]? =
        some (tableLine false t y k) := by
      have h := getElem?_flatMap_range (rowLines false t gap) a.ySize y k hy' (by rw [hlen]; omega)
      rw [hsum y hy'] at h
      rw [h]
      unfold rowLines
      simp only [Bool.false_eq_true, if_false, List.append_nil, List.getElem?_map]
      rw [List.getElem?_range (by rw [hrow]; omega)]
      rfl
    rw [e1]
    obtain ⟨post, h1, -⟩ := flatMap_range_split (fun x => [] ++ ([' '] ++ Table.padded (t.line x y k) (t.width x) ++ [' ']))
      t.columns x hx'
    refine ⟨(List.range x).flatMap (fun x => [] ++ ([' '] ++ Table.padded (t.line x y k) (t.width x) ++ [' '])), post ++ [']'], ?_, ?_⟩
    · unfold tableLine
      simp only [Bool.false_eq_true, if_false]
      rw [h1]
      simp
    · rw [length_flatMap_range]
      apply Finset.sum_congr rfl
      intro i _
      have := length_padded t i y k hy'
      simp only [List.length_append, List.length_cons, List.length_nil, this]
      omega

/-- C80: an array without elements prints its size; printing never panics. -/
theorem C80_empty {α : Type} (alternate : Bool) (text : α → Text) (lines : Text → List Text) (a : Array2D α) (ha : a.Valid) :
    (∃ out, a.display alternate text lines = some out) ∧ (a.xSize = 0 ∨ a.ySize = 0 → a.display alternate text lines =
      some ("[x_size=".toList ++ decimal a.xSize ++ ", y_size=".toList ++ decimal a.ySize ++ "]\n".toList)) := by
  rw [display_eq alternate text lines a ha]
  refine ⟨⟨_, rfl⟩, fun h => ?_⟩
  unfold displayText
  rw [if_pos h]

/-- a 2 by 2 array with a cell of two lines, cut at `/`, in both forms -/
example : (Array2D.mk 2 2 2 ["1".toList, "23".toList, "a/bcd".toList, "".toList]).display true id
      (fun s => s.splitOn '/') =
    some "+----+-----+\n| 1  | a   |\n|    | bcd |\n+----+-----+\n| 23 |     |\n+----+-----+".toList ∧
    (Array2D.mk 2 2 2 ["1".toList, "23".toList, "a/bcd".toList, "".toList]).display false id
      (fun s => s.splitOn '/') = some "[ 1   a   ]\n[     bcd ]\n[         ]\n[ 23      ]".toList := by
  decide +kernel

end Algebraics
