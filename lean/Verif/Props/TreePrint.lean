import Verif.Lemmas.TreePrint

/-!
# C95: printing a tree (`src/util.rs:920-1024`)

`PTree.printed t` is what `print_tree` prints.  The specification (`Spec/TreePrint.lean`) gives the number of lines
(`height`), the line where the branch of the parent arrives (`centre`) and the texts from left to right with their
columns (`rows`).
-/

namespace Algebraics

namespace PTree

variable {σ E : Type}

/-- C95, a leaf: its lines, the middle one marked with a colon. -/
theorem C95_leaf (lines : List Text) :
    printed (leaf lines) =
      (shown lines).mapIdx fun i x => (if i = (shown lines).length / 2 then [':'] else [' ']) ++ x :=
  printed_leaf lines

/-- C95, an inner node: the picture of the left tree, the text, the picture of the right tree.  A vertical bar runs from
the centre line of the left tree to the centre line of the right tree, and the branches leave it on those two lines. -/
theorem C95_node (l : PTree) (data : List Text) (r : PTree) :
    printed (node l data r) =
      ((printed l).mapIdx fun i x =>
        (if i < centre l then [' ', ' ', ' ', ' ']
          else if i = centre l then [' ', '+', '-', '-'] else [' ', '|', ' ', ' ']) ++ x) ++
      (([[]] ++ data ++ [[]] : List Text).mapIdx fun i x =>
        (if i = (data.length + 2) / 2 then ['-', '+', ':'] else [' ', '|', ' ']) ++ x) ++
      ((printed r).mapIdx fun i x =>
        (if i < centre r then [' ', '|', ' ', ' ']
          else if i = centre r then [' ', '+', '-', '-'] else [' ', ' ', ' ', ' ']) ++ x) :=
  printed_node l data r

/-- C95, the number of lines. -/
theorem C95_size (t : PTree) : (printed t).length = height t := printed_length t

/-- C95: the texts of the whole tree are printed completely, from left to right, every line of a text in the column
that belongs to its depth. -/
theorem C95_columns (t : PTree) :
    List.Forall₂ (fun line row => row.1 ≤ line.length ∧ line.drop row.1 = row.2) (printed t) (rows 0 t) :=
  at_rows t

/-- C95: the picture determines the tree: two trees are printed alike exactly when they are equal, an empty leaf
counting as an empty line. -/
theorem C95_read_back (t t' : PTree) : printed t = printed t' ↔ visible t = visible t' :=
  ⟨printed_inj t t', fun h => by rw [← printed_visible t, ← printed_visible t', h]⟩

/-- C95: whatever the output does, it is given the lines of the picture one after the other, up to the first one it
refuses; that error is the result. -/
theorem C95_output (w : σ → Text → σ × Option E) (t : PTree) (s : σ) :
    writeTree w t s = writeSeq w (printed t) s := by
  rw [writeTree, helper_eq, printed_eq]

/-- C95, an output that takes `n` lines and refuses all others with the error `e`: it has got the first `n` lines of
the picture, and the result is the error exactly when there are more. -/
theorem C95_full_output (n : ℕ) (e : E) (t : PTree) :
    writeTree (fun (s : List Text) line => if s.length < n then (s ++ [line], none) else (s, some e)) t [] =
      ((printed t).take n, if n < height t then some e else none) := by
  rw [C95_output, ← C95_size]
  have key : ∀ (L S : List Text), S.length ≤ n →
      writeSeq (fun (s : List Text) line => if s.length < n then (s ++ [line], none) else (s, some e)) L S =
        (S ++ L.take (n - S.length), if n < S.length + L.length then some e else none) := by
    intro L
    induction L with
    | nil =>
      intro S hS
      simp [writeSeq]
      omega
    | cons x L ih =>
      intro S hS
      by_cases h : S.length < n
      · have hlen : (S ++ [x]).length = S.length + 1 := by simp
        simp only [writeSeq, h, if_true]
        rw [ih _ (by omega), hlen]
        obtain ⟨k, hk⟩ : ∃ k, n - S.length = k + 1 := ⟨n - S.length - 1, by omega⟩
        rw [hk, List.take_succ_cons, show n - (S.length + 1) = k by omega]
        simp only [List.append_assoc, List.cons_append, List.nil_append, List.length_cons,
          show S.length + 1 + L.length = S.length + (L.length + 1) by omega]
      · simp only [writeSeq, h, if_false]
        rw [show n - S.length = 0 by omega, if_pos (by simp; omega)]
        simp
  simpa using key (printed t) [] (by simp)

/-- A tree with a text of two lines and an empty leaf. -/
example : printed (node (leaf ["a".toList, "b".toList]) ["x".toList] (leaf [])) =
    ["     a".toList, " +--:b".toList, " | ".toList, "-+:x".toList, " | ".toList, " +--:".toList] := by
  decide

/-- A deeper tree. -/
example : printed (node (node (leaf ["a".toList]) [] (leaf ["b".toList])) ["x".toList] (leaf ["c".toList])) =
    ["     +--:a".toList, "     | ".toList, " +---+:".toList, " |   +--:b".toList, " | ".toList, "-+:x".toList,
      " | ".toList, " +--:c".toList] := by
  decide

example : visible (leaf []) = visible (leaf [[]]) ∧ leaf [] ≠ leaf [[]] := by
  exact ⟨rfl, by simp⟩

end PTree

end Algebraics
