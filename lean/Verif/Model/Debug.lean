import Verif.Model.Tree

/-!
# correct.go: `debugPrintTrace`

The text of a line is not modelled, only what it tells: `strings.Repeat` indents by the level.
-/

namespace Verif

/-- A line of the log. -/
inductive LogLine
  /-- correct.go:380 -/
  | root (trace : Id) (idx : Nat)
  /-- correct.go:360-361: name, id, timestamp, duration and parent of the span -/
  | node (level : Nat) (span : Span)
  /-- correct.go:366 -/
  | deeper (level : Nat)
  /-- correct.go:371 -/
  | more (level : Nat) (count : Int)
  /-- correct.go:384 -/
  | blank

/-- correct.go:347 -/
def maxLevel : Nat := 6
/-- correct.go:348 -/
def maxChildCount : Nat := 32

/-- correct.go:364-376: the loop over the children, from the index `idx` on; `count` is `len(children)`. -/
def printChildren (print : Nat → Option (List LogLine)) (level count : Nat) : Nat → List Nat → Option (List LogLine)
  | _, [] => some []
  | idx, child :: rest =>
    if level = maxLevel then some [.deeper level]
    else if idx = maxChildCount then some [.more level ((count : Int) - maxChildCount + 1)]
    else
      match print child with
      | none => none
      | some lines => (printChildren print level count (idx + 1) rest).map (lines ++ ·)

/-- correct.go:357-377 `printNode`. `node` is a pointer into the spans of the tree. The recursion depth is limited by `fuel`; `none` means that the fuel did not suffice. -/
def printNode (spans : List Span) : (fuel : Nat) → (node level : Nat) → Option (List LogLine)
  | 0, _, _ => none
  | fuel + 1, node, level =>
    match spans[node]? with
    | none => some []
    | some n =>
      let children := childrenOf spans n.id
      (printChildren (fun child => printNode spans fuel child (level + 1)) level children.length 0 children).map (.node level n :: ·)

/-- correct.go:379-382: the loop over the roots. -/
def printRoots (spans : List Span) (fuel : Nat) (trace : Id) : Nat → List Nat → Option (List LogLine)
  | _, [] => some []
  | idx, root :: rest =>
    match printNode spans fuel root 0 with
    | none => none
    | some lines => (printRoots spans fuel trace (idx + 1) rest).map (.root trace idx :: lines ++ ·)

/-- correct.go:342-385 `debugPrintTrace`; `debug` tells whether the level of the log is `DebugLevel`. -/
def debugPrintTrace (debug : Bool) (fuel : Nat) (spans : List Span) : Option (List LogLine) :=
  if debug = false then some []
  else
    match pick spans (roots spans) with
    | [] => some []
    | first :: _ => (printRoots spans fuel first.trace 0 (roots spans)).map (· ++ [.blank])

end Verif
