import Verif.Spec.TreePrint
import Mathlib.Data.List.DropRight
import Mathlib.Tactic.Linarith

/-! # Lemmas for tree printing -/

namespace Algebraics

namespace PTree

variable {σ E : Type}

theorem writeSeq_append (w : σ → Text → σ × Option E) (A B : List Text) (s : σ) :
    writeSeq w (A ++ B) s =
      match writeSeq w A s with
      | (s, some e) => (s, some e)
      | (s, none) => writeSeq w B s := by
  induction A generalizing s with
  | nil => simp [writeSeq]
  | cons a A ih =>
    simp only [List.cons_append, writeSeq]
    rcases h : w s a with ⟨s', _ | e⟩
    · simp [ih]
    · simp

/-- the prefix of line `i` -/
def pre (a c b : Text) (mid i : ℕ) (x : Text) : Text :=
  if i < mid then a ++ x else if i = mid then c ++ x else b ++ x

theorem writeLines_eq (w : σ → Text → σ × Option E) (a c b : Text) (mid i : ℕ) (L : List Text) (s : σ) :
    writeLines w a c b mid i L s = writeSeq w (L.mapIdx fun j x => pre a c b mid (j + i) x) s := by
  induction L generalizing i s with
  | nil => simp [writeLines, writeSeq]
  | cons x L ih =>
    have e : (fun j x => pre a c b mid (j + (i + 1)) x) = fun j x => pre a c b mid (j + 1 + i) x := by
      funext j x; congr 1; omega
    have hpre : ∀ t : Text, t = pre a c b mid i x →
        (match w s t with
          | (s, some e) => (s, some e)
          | (s, none) => writeLines w a c b mid (i + 1) L s) =
        writeSeq w ((x :: L).mapIdx fun j x => pre a c b mid (j + i) x) s := by
      rintro t rfl
      simp only [writeSeq, List.mapIdx_cons, Nat.zero_add, ih, e]
      rcases w s _ with ⟨s', _ | e⟩ <;> rfl
    rcases lt_trichotomy i mid with h | h | h
    · rw [writeLines, compare_lt_iff_lt.2 h]
      exact hpre _ (by simp [pre, h])
    · rw [writeLines, compare_eq_iff_eq.2 h]
      exact hpre _ (by simp [pre, h])
    · rw [writeLines, compare_gt_iff_gt.2 h]
      exact hpre _ (by unfold pre; rw [if_neg (by omega), if_neg (by omega)])

/-- the lines with the prefixes of the code -/
def pic : PTree → Text → Text → Text → List Text
  | leaf lines, a, c, b =>
    (shown lines).mapIdx fun j x => pre (a ++ [' ']) (c ++ [':']) (b ++ [' ']) ((shown lines).length / 2) j x
  | node l data r, a, c, b =>
    pic l (a ++ [' ', ' ', ' ', ' ']) (a ++ [' ', '+', '-', '-']) (a ++ [' ', '|', ' ', ' ']) ++
      ((([[]] ++ data ++ [[]] : List Text).mapIdx fun j x =>
        pre (a ++ [' ', '|', ' ']) (c ++ ['-', '+', ':']) (b ++ [' ', '|', ' ']) ((data.length + 2) / 2) j x) ++
      pic r (b ++ [' ', '|', ' ', ' ']) (b ++ [' ', '+', '-', '-']) (b ++ [' ', ' ', ' ', ' ']))

theorem helper_eq (w : σ → Text → σ × Option E) (t : PTree) (a c b : Text) (s : σ) :
    helper w t a c b s = writeSeq w (pic t a c b) s := by
  induction t generalizing a c b s with
  | leaf lines =>
    simp only [helper, pic, writeLines_eq, shown, List.isEmpty_iff, Nat.add_zero]
  | node l data r ihl ihr =>
    have hlen : (([[]] ++ data ++ [[]] : List Text).length / 2) = (data.length + 2) / 2 := by
      simp only [List.length_append, List.length_cons, List.length_nil]
      congr 1
      omega
    simp only [helper, pic, ihl, ihr, writeLines_eq, Nat.add_zero, hlen]
    rw [writeSeq_append]
    rcases writeSeq w (pic l _ _ _) s with ⟨s', _ | e⟩
    · simp only
      rw [writeSeq_append]
      rcases writeSeq w _ s' with ⟨s'', _ | e⟩ <;> rfl
    · rfl

theorem collect (L : List Text) (s : List Text) :
    writeSeq (E := Empty) (fun s line => (s ++ [line], none)) L s = (s ++ L, none) := by
  induction L generalizing s with
  | nil => simp [writeSeq]
  | cons x L ih => simp [writeSeq, ih]

theorem printed_eq (t : PTree) : printed t = pic t [] [] [] := by
  simp [printed, writeTree, helper_eq, collect]

theorem shown_length (lines : List Text) : (shown lines).length = max 1 lines.length := by
  unfold shown
  split
  · simp [*]
  · have : 0 < lines.length := List.length_pos_iff.2 ‹_›
    omega

theorem pic_length (t : PTree) (a c b : Text) : (pic t a c b).length = height t := by
  induction t generalizing a c b with
  | leaf lines => simp [pic, height, shown_length]
  | node l data r ihl ihr =>
    simp [pic, height, ihl, ihr]; omega

theorem centre_lt (t : PTree) : centre t < height t := by
  cases t with
  | leaf lines => simp only [centre, height]; omega
  | node l data r => simp only [centre, height]; omega

/-- prefixes can be put in front afterwards -/
theorem pic_pre (t : PTree) (a c b : Text) :
    pic t a c b = (pic t [] [] []).mapIdx fun i x => pre a c b (centre t) i x := by
  induction t generalizing a c b with
  | leaf lines =>
    simp only [pic, centre, shown_length, List.mapIdx_mapIdx]
    congr 1
    funext j x
    simp only [pre, Function.comp]
    split_ifs <;> simp
  | node l data r ihl ihr =>
    have hl := pic_length l
    have hcl := centre_lt l
    have hc : centre (node l data r) = height l + (data.length + 2) / 2 := rfl
    have hD : ([[]] ++ data ++ [[]] : List Text).length = data.length + 2 := by simp
    simp only [pic]
    generalize ([[]] ++ data ++ [[]] : List Text) = D at hD ⊢
    rw [ihl, ihr]
    rw [ihl ([] ++ [' ', ' ', ' ', ' ']), ihr ([] ++ [' ', '|', ' ', ' '])]
    simp only [List.mapIdx_append, List.mapIdx_mapIdx, List.length_mapIdx, hl]
    congr 1
    · apply List.ext_getElem
      · simp
      · intro i h1 h2
        simp [hl] at h1
        simp only [List.getElem_mapIdx, Function.comp, pre, hc]
        rw [if_pos (by omega : i < height l + (data.length + 2) / 2)]
        split_ifs <;> simp
    · congr 1
      · apply List.ext_getElem
        · simp
        · intro i h1 h2
          simp only [List.getElem_mapIdx, Function.comp, pre, hc]
          split_ifs <;> first | omega | simp
      · apply List.ext_getElem
        · simp
        · intro i h1 h2
          simp only [List.getElem_mapIdx, Function.comp, pre, hc, hD]
          split_ifs <;> first | omega | simp

theorem printed_length (t : PTree) : (printed t).length = height t := by
  rw [printed_eq, pic_length]

theorem printed_leaf (lines : List Text) :
    printed (leaf lines) =
      (shown lines).mapIdx fun i x => (if i = (shown lines).length / 2 then [':'] else [' ']) ++ x := by
  rw [printed_eq]
  simp only [pic]
  congr 1
  funext i x
  simp only [pre]
  split_ifs <;> first | omega | rfl

theorem printed_node (l : PTree) (data : List Text) (r : PTree) :
    printed (node l data r) =
      ((printed l).mapIdx fun i x =>
        (if i < centre l then [' ', ' ', ' ', ' ']
          else if i = centre l then [' ', '+', '-', '-'] else [' ', '|', ' ', ' ']) ++ x) ++
      (([[]] ++ data ++ [[]] : List Text).mapIdx fun i x =>
        (if i = (data.length + 2) / 2 then ['-', '+', ':'] else [' ', '|', ' ']) ++ x) ++
      ((printed r).mapIdx fun i x =>
        (if i < centre r then [' ', '|', ' ', ' ']
          else if i = centre r then [' ', '+', '-', '-'] else [' ', ' ', ' ', ' ']) ++ x) := by
  simp only [printed_eq]
  simp only [pic]
  rw [pic_pre l ([] ++ _), pic_pre r ([] ++ _), ← List.append_assoc]
  congr 1
  · congr 1
    · congr 1
      funext i x
      simp only [pre]
      split_ifs <;> rfl
    · congr 1
      funext i x
      simp only [pre]
      split_ifs <;> first | omega | rfl
  · congr 1
    funext i x
    simp only [pre]
    split_ifs <;> rfl

theorem forall₂_mapIdx {α β : Type} {S : β → α → Prop} (f : ℕ → α → β) (h : ∀ i x, S (f i x) x) (L : List α) :
    List.Forall₂ S (L.mapIdx f) L := by
  induction L generalizing f with
  | nil => simp
  | cons x L ih =>
    rw [List.mapIdx_cons]
    exact List.Forall₂.cons (h 0 x) (ih _ fun i x => h (i + 1) x)

/-- the text of a row stands at its column -/
def At (line : Text) (row : ℕ × Text) : Prop := row.1 ≤ line.length ∧ line.drop row.1 = row.2

theorem rows_shift (d : ℕ) (t : PTree) : rows (d + 1) t = (rows d t).map fun p => (p.1 + 4, p.2) := by
  induction t generalizing d with
  | leaf lines => simp [rows]; intros; omega
  | node l data r ihl ihr =>
    rw [rows, rows, ihl (d + 1), ihr (d + 1)]
    simp only [List.map_append, List.map_map]
    congr 2

theorem at_shift {M L : List Text} {rs : List (ℕ × Text)}
    (hM : List.Forall₂ (fun y x => ∃ p : Text, p.length = 4 ∧ y = p ++ x) M L) (hL : List.Forall₂ At L rs) :
    List.Forall₂ At M (rs.map fun p => (p.1 + 4, p.2)) := by
  induction hM generalizing rs with
  | nil => cases hL; exact List.Forall₂.nil
  | cons h _ ih =>
    cases hL with
    | cons h' ht =>
      obtain ⟨p, hp, rfl⟩ := h
      refine List.Forall₂.cons ⟨?_, ?_⟩ (ih ht)
      · have := h'.1
        simp only [List.length_append]
        omega
      · rw [← h'.2]
        simp only [List.drop_append, hp]
        rw [List.drop_of_length_le (by omega)]
        simp

theorem at_rows (t : PTree) : List.Forall₂ At (printed t) (rows 0 t) := by
  induction t with
  | leaf lines =>
    rw [printed_leaf, rows, List.forall₂_map_right_iff]
    apply forall₂_mapIdx
    intro i x
    unfold At
    split_ifs <;> simp
  | node l data r ihl ihr =>
    rw [printed_node, rows, rows_shift, rows_shift]
    refine List.rel_append (List.rel_append (at_shift (forall₂_mapIdx _ ?_ _) ihl) ?_)
      (at_shift (forall₂_mapIdx _ ?_ _) ihr)
    · intro i x
      exact ⟨_, by split_ifs <;> rfl, rfl⟩
    · rw [List.forall₂_map_right_iff]
      apply forall₂_mapIdx
      intro i x
      unfold At
      split_ifs <;> simp
    · intro i x
      exact ⟨_, by split_ifs <;> rfl, rfl⟩

theorem printed_pos (t : PTree) : ∀ x ∈ printed t, 1 ≤ x.length := by
  cases t with
  | leaf lines =>
    rw [printed_leaf]
    intro x hx
    obtain ⟨i, hi, rfl⟩ := List.mem_mapIdx.1 hx
    split_ifs <;> simp
  | node l data r =>
    rw [printed_node]
    intro x hx
    simp only [List.mem_append] at hx
    rcases hx with (hx | hx) | hx <;>
    · obtain ⟨i, hi, rfl⟩ := List.mem_mapIdx.1 hx
      split_ifs <;> simp

theorem mapIdx_drop {k : ℕ} (f : ℕ → Text → Text) (h : ∀ i x, (f i x).drop k = x) (L : List Text) :
    (L.mapIdx f).map (·.drop k) = L := by
  apply List.ext_getElem
  · simp
  · intro i h1 h2
    simp [h]

theorem split_blocks {p : Text → Bool} {A A' B B' : List Text} (hA : ∀ x ∈ A, p x) (hA' : ∀ x ∈ A', p x)
    (hB : ∃ b ∈ B.head?, p b = false) (hB' : ∃ b ∈ B'.head?, p b = false) (h : A ++ B = A' ++ B') :
    A = A' ∧ B = B' := by
  have key : ∀ (A B : List Text), (∀ x ∈ A, p x) → (∃ b ∈ B.head?, p b = false) → (A ++ B).takeWhile p = A := by
    intro A B hA hB
    rw [List.takeWhile_append_of_pos hA]
    cases B with
    | nil => simp
    | cons b B =>
      obtain ⟨c, hc, hp⟩ := hB
      simp only [List.head?_cons, Option.mem_def, Option.some.injEq] at hc
      subst hc
      simp [hp]
  have e : A = A' := by rw [← key A B hA hB, h, key A' B' hA' hB']
  subst e
  exact ⟨rfl, List.append_cancel_left h⟩

def aboveBlock (l : PTree) : List Text :=
  (printed l).mapIdx fun i x =>
    (if i < centre l then [' ', ' ', ' ', ' ']
      else if i = centre l then [' ', '+', '-', '-'] else [' ', '|', ' ', ' ']) ++ x

def dataBlock (data : List Text) : List Text :=
  ([[]] ++ data ++ [[]] : List Text).mapIdx fun i x =>
    (if i = (data.length + 2) / 2 then ['-', '+', ':'] else [' ', '|', ' ']) ++ x

def belowBlock (r : PTree) : List Text :=
  (printed r).mapIdx fun i x =>
    (if i < centre r then [' ', '|', ' ', ' ']
      else if i = centre r then [' ', '+', '-', '-'] else [' ', ' ', ' ', ' ']) ++ x

theorem printed_node_blocks (l : PTree) (data : List Text) (r : PTree) :
    printed (node l data r) = aboveBlock l ++ (dataBlock data ++ belowBlock r) := by
  rw [printed_node, List.append_assoc]
  rfl

theorem aboveBlock_drop (l : PTree) : (aboveBlock l).map (·.drop 4) = printed l :=
  mapIdx_drop _ (by intro i x; split_ifs <;> simp) _

theorem belowBlock_drop (l : PTree) : (belowBlock l).map (·.drop 4) = printed l :=
  mapIdx_drop _ (by intro i x; split_ifs <;> simp) _

theorem dataBlock_drop (data : List Text) : (dataBlock data).map (·.drop 3) = [[]] ++ data ++ [[]] :=
  mapIdx_drop _ (by intro i x; split_ifs <;> simp) _

theorem aboveBlock_long (l : PTree) : ∀ x ∈ aboveBlock l, decide (5 ≤ x.length) = true := by
  intro x hx
  obtain ⟨i, hi, rfl⟩ := List.mem_mapIdx.1 hx
  have := printed_pos l _ (List.getElem_mem hi)
  split_ifs <;> simp <;> omega

theorem belowBlock_long (l : PTree) : ∀ x ∈ belowBlock l, decide (5 ≤ x.length) = true := by
  intro x hx
  obtain ⟨i, hi, rfl⟩ := List.mem_mapIdx.1 hx
  have := printed_pos l _ (List.getElem_mem hi)
  split_ifs <;> simp <;> omega

theorem dataBlock_head (d C : List Text) :
    ∃ b ∈ (dataBlock d ++ C).head?, decide (5 ≤ b.length) = false := by
  refine ⟨_, by simp only [dataBlock, List.cons_append, List.mapIdx_cons, List.head?_cons]; rfl, ?_⟩
  split_ifs <;> simp

theorem dataBlock_last (d : List Text) :
    ∃ b ∈ (dataBlock d).reverse.head?, decide (5 ≤ b.length) = false := by
  refine ⟨_, by
    rw [dataBlock, List.mapIdx_append]
    simp only [List.mapIdx_cons, List.mapIdx_nil, List.reverse_append, List.reverse_cons, List.reverse_nil,
      List.nil_append, List.cons_append, List.head?_cons]
    rfl, ?_⟩
  split_ifs <;> simp

theorem printed_inj (t t' : PTree) (h : printed t = printed t') : visible t = visible t' := by
  have hln : ∀ (lines : List Text) (l : PTree) (data : List Text) (r : PTree),
      printed (leaf lines) ≠ printed (node l data r) := by
    intro lines l data r h
    have hm : ∀ x ∈ printed (leaf lines), x.head? ≠ some '-' := by
      rw [printed_leaf]
      intro x hx
      obtain ⟨i, hi, rfl⟩ := List.mem_mapIdx.1 hx
      split_ifs <;> simp
    rw [h, printed_node] at hm
    have hD : ([[]] ++ data ++ [[]] : List Text).length = data.length + 2 := by simp
    have hlt : (data.length + 2) / 2 < ([[]] ++ data ++ [[]] : List Text).length := by omega
    refine hm (['-', '+', ':'] ++ ([[]] ++ data ++ [[]] : List Text)[(data.length + 2) / 2]) ?_ (by simp)
    refine List.mem_append_left _ (List.mem_append_right _ (List.mem_mapIdx.2 ⟨_, hlt, ?_⟩))
    rw [if_pos rfl]
  induction t generalizing t' with
  | leaf lines =>
    cases t' with
    | leaf lines' =>
      have := congrArg (List.map (·.drop 1)) h
      rw [printed_leaf, printed_leaf, mapIdx_drop _ (by intro i x; split_ifs <;> simp),
        mapIdx_drop _ (by intro i x; split_ifs <;> simp)] at this
      rw [visible, visible, this]
    | node l data r => exact absurd h (hln _ _ _ _)
  | node l data r ihl ihr =>
    cases t' with
    | leaf lines' => exact absurd h.symm (hln _ _ _ _)
    | node l' data' r' =>
      rw [printed_node_blocks, printed_node_blocks] at h
      obtain ⟨hA, hBC⟩ := split_blocks (p := fun x => decide (5 ≤ x.length)) (aboveBlock_long l)
        (aboveBlock_long l') (dataBlock_head _ _) (dataBlock_head _ _) h
      have hBC := congrArg List.reverse hBC
      rw [List.reverse_append, List.reverse_append] at hBC
      obtain ⟨hC, hB⟩ := split_blocks (p := fun x => decide (5 ≤ x.length))
        (fun x hx => belowBlock_long r x (List.mem_reverse.1 hx))
        (fun x hx => belowBlock_long r' x (List.mem_reverse.1 hx)) (dataBlock_last _) (dataBlock_last _) hBC
      have hC := List.reverse_injective hC
      have hB := List.reverse_injective hB
      have eA := congrArg (List.map (·.drop 4)) hA
      rw [aboveBlock_drop, aboveBlock_drop] at eA
      have eC := congrArg (List.map (·.drop 4)) hC
      rw [belowBlock_drop, belowBlock_drop] at eC
      have eB := congrArg (List.map (·.drop 3)) hB
      rw [dataBlock_drop, dataBlock_drop] at eB
      have eD : data = data' := by simpa using eB
      rw [visible, visible, ihl l' eA, ihr r' eC, eD]

theorem shown_shown (lines : List Text) : shown (shown lines) = shown lines := by
  unfold shown
  split_ifs <;> simp_all

theorem centre_height_visible (t : PTree) : centre (visible t) = centre t ∧ height (visible t) = height t := by
  induction t with
  | leaf lines => simp [visible, centre, height, shown_length]
  | node l data r ihl ihr => simp [visible, centre, height, ihl, ihr]

theorem printed_visible (t : PTree) : printed (visible t) = printed t := by
  induction t with
  | leaf lines => rw [visible, printed_leaf, printed_leaf, shown_shown]
  | node l data r ihl ihr =>
    rw [visible, printed_node, printed_node, ihl, ihr, (centre_height_visible l).1, (centre_height_visible r).1]

end PTree

end Algebraics
