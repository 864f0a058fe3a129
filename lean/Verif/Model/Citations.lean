/-!
# Model of `Citations` (jdftx/core/Util.cpp:615-672)

The static `std::list` is threaded through as state. Papers and reasons are strings; the code only compares
them for equality, so they are elements of any type with decidable equality. Splitting a paper into lines
for printing is not modelled; a printed block is the list of its reasons with the paper.
-/
namespace Jdftx.Cite

variable {P R : Type} [DecidableEq P] [DecidableEq R]

/-- Util.cpp:625-637: the search loop from the current iterator on, with `foundPrev`, followed by
`citationList.insert(iter, *addCitation)` unless a duplicate was found. `first` = paper, `second` = reason. -/
def insertFrom (add : P × R) : Bool → List (P × R) → List (P × R)
  | _, [] => [add]
  | foundPrev, e :: rest =>
    if foundPrev ∧ e.2 ≠ add.2 then add :: e :: rest
    else if e.2 = add.2 then
      if e.1 = add.1 then e :: rest
      else e :: insertFrom add true rest
    else e :: insertFrom add foundPrev rest

/-- Util.cpp:643-646 `add(reason, paper)`. -/
def add (l : List (P × R)) (reason : R) (paper : P) : List (P × R) := insertFrom (paper, reason) false l

/-- A history of calls `add(reason, paper)`. -/
def run (calls : List (R × P)) : List (P × R) := calls.foldl (fun l c => add l c.1 c.2) []

/-- Util.cpp:654-667, the nested printing loops: `paper` and the reasons printed since its block began. -/
def printFrom (paper : P) (reasons : List R) : List (P × R) → List (List R × P)
  | [] => [(reasons, paper)]
  | e :: rest =>
    if e.1 ≠ paper then (reasons, paper) :: printFrom e.1 [e.2] rest
    else printFrom paper (reasons ++ [e.2]) rest

/-- Util.cpp:648-671 `print`: the blocks in the order printed. -/
def print : List (P × R) → List (List R × P)
  | [] => []
  | e :: rest => printFrom e.1 [e.2] rest

end Jdftx.Cite
