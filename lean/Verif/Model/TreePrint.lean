import Verif.Model.Display

/-!
# Model of tree printing (`src/util.rs:920-1024`, `PrintTree`)

A tree is given by the lines of the texts of its leaves and of its inner nodes; `strLines` cuts a text into lines.  The function that writes a line is a parameter too: it
has a state, and may refuse a line with an error.
-/

namespace Algebraics

/-- The loop of `str::lines`; `cur` is the part of the line already read. -/
def strLinesFrom : Text → Text → List Text
  | cur, [] => if cur = [] then [] else [cur]
  | cur, c :: s =>
    if c = '\n' then (if cur.getLast? = some '\r' then cur.dropLast else cur) :: strLinesFrom [] s
    else strLinesFrom (cur ++ [c]) s

/-- external: `str::lines` as used in `src/util.rs:954` and `:993-996`: lines end with a line feed, which may be missing
at the end of the text; a carriage return before the line feed belongs to it. -/
def strLines (s : Text) : List Text := strLinesFrom [] s

/-- What `PrintTree::to_leaf_or_node_pair` shows of a tree (`src/util.rs:920-923`), every text cut into its lines. -/
inductive PTree where
  | leaf (lines : List Text)
  | node (left : PTree) (data : List Text) (right : PTree)

namespace PTree

variable {σ E : Type}

/-- `src/util.rs:953-961` and `:986-994`: the loop over the lines of a leaf or of an inner node, with the three
prefixes; `mid` is `lines.len() / 2`, `i` the index of the next line.  A refused line ends the loop. -/
def writeLines (w : σ → Text → σ × Option E) (above center below : Text) (mid : ℕ) :
    ℕ → List Text → σ → σ × Option E
  | _, [], s => (s, none)
  | i, line :: rest, s =>
    let text := match compare i mid with
      | .lt => above ++ line
      | .eq => center ++ line
      | .gt => below ++ line
    match w s text with
    | (s, some e) => (s, some e)
    | (s, none) => writeLines w above center below mid (i + 1) rest s

/-- `src/util.rs:936-1009` `write_or_print_tree`, the inner function `helper`. -/
def helper (w : σ → Text → σ × Option E) : PTree → Text → Text → Text → σ → σ × Option E
  | leaf lines, above, center, below, s =>
    let lines := if lines.isEmpty then [[]] else lines
    writeLines w (above ++ [' ']) (center ++ [':']) (below ++ [' ']) (lines.length / 2) 0 lines s
  | node left data right, above, center, below, s =>
    match helper w left (above ++ [' ', ' ', ' ', ' ']) (above ++ [' ', '+', '-', '-'])
        (above ++ [' ', '|', ' ', ' ']) s with
    | (s, some e) => (s, some e)
    | (s, none) =>
      let lines := [[]] ++ data ++ [[]]
      match writeLines w (above ++ [' ', '|', ' ']) (center ++ ['-', '+', ':']) (below ++ [' ', '|', ' '])
          (lines.length / 2) 0 lines s with
      | (s, some e) => (s, some e)
      | (s, none) =>
        helper w right (below ++ [' ', '|', ' ', ' ']) (below ++ [' ', '+', '-', '-'])
          (below ++ [' ', ' ', ' ', ' ']) s

/-- `src/util.rs:936-1012` `write_or_print_tree`; `write_tree` (`:1013-1015`) and `print_tree` (`:1016-1024`) are this
with a particular `w`. -/
def writeTree (w : σ → Text → σ × Option E) (t : PTree) (s : σ) : σ × Option E := helper w t [] [] [] s

/-- `print_tree` (`src/util.rs:1016-1024`): the lines that get written when no line is refused. -/
def printed (t : PTree) : List Text :=
  (writeTree (E := Empty) (fun s line => (s ++ [line], none)) t []).1

end PTree

end Algebraics
