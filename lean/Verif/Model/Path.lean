import Verif.Model.Go
/-!
# `path.Clean`, `path.Dir` and `strings` functions used by `PendingBatch.DecPrefixCounter`

Standard-library functions, not in `/repo`; modelled after their documented behaviour.
-/
namespace Verif.Path

/-- The byte '/'. -/
def slash : UInt8 := 47
/-- The string ".". -/
def dot : GoStr := [46]
/-- The string "..". -/
def dotdot : GoStr := [46, 46]

/-- Split at every slash. -/
def split : GoStr → List GoStr
  | [] => [[]]
  | b :: bs =>
    if b = slash then [] :: split bs
    else match split bs with
      | s :: ss => (b :: s) :: ss
      | [] => [[b]]

/-- Join with slashes. -/
def join : List GoStr → GoStr
  | [] => []
  | [s] => s
  | s :: t :: ss => s ++ slash :: join (t :: ss)

/-- One element of the loop of `path.Clean`; the stack is kept reversed. -/
def cleanStep (rooted : Bool) (stack : List GoStr) (seg : GoStr) : List GoStr :=
  if seg = [] ∨ seg = dot then stack
  else if seg = dotdot then
    match stack with
    | top :: rest => if top = dotdot then seg :: stack else rest
    | [] => if rooted then [] else [seg]
  else seg :: stack

/-- `path.Clean`: drop empty and "." elements, resolve "..", keep a leading slash, "." if nothing is left. -/
def clean (p : GoStr) : GoStr :=
  let rooted := p.head? == some slash
  let stack := (split p).foldl (cleanStep rooted) []
  let out := (if rooted then [slash] else []) ++ join stack.reverse
  if out = [] then dot else out

/-- First result of `path.Split`: everything up to and including the last slash. -/
def dirPart (p : GoStr) : GoStr := (p.reverse.dropWhile (· ≠ slash)).reverse

/-- `path.Dir`. -/
def dir (p : GoStr) : GoStr := clean (dirPart p)

/-- `strings.TrimPrefix(d, "/") + "/"`, `delivery/consumer.go:159`. -/
def dirKey (d : GoStr) : GoStr :=
  (match d with
   | b :: bs => if b = slash then bs else b :: bs
   | [] => []) ++ [slash]

end Verif.Path
