import Verif.Model.Regexp
/-!
# The command `cardinal-streams-cat` (`cmd/cardinal-streams-cat/main.go`)

Parsing of flags is left out (`url` and `args` are its results), and so are logging and the JSON that is printed.
-/
namespace Verif

/-- How the program ends, or what it runs. -/
inductive CatOut (α : Type) where
  /-- `os.Exit(1)` -/
  | exit
  /-- a panic before a consumer exists -/
  | panic
  /-- the consumer is started; the tracked prefixes it was made with -/
  | started (c : α) (tracked : List Re)

/-- `regexp.MustCompile`. -/
def mustCompile (s : GoStr) : Except Fault Re :=
  match parseRe s with
  | .ok re => .ok re
  | .error _ => .error .panic

/-- `main`, `cmd/cardinal-streams-cat/main.go:17-47`, with the tracked expression as a parameter. `resolve` stands for
`transports.ResolveConsumer`. -/
def catMainWith {α : Type} (pattern : GoStr) (resolve : GoStr → GoStr → List GoStr → List Re → Option α) (url : GoStr) (args : List GoStr) :
    CatOut α :=
  if url = [] then .exit                        -- lines 21-24
  else match mustCompile pattern with           -- lines 26-28
    | .error _ => .panic
    | .ok re =>
      match args with                           -- lines 29-33
      | [] => .exit
      | topic :: _ =>
        match resolve url topic args [re] with  -- lines 34-38
        | none => .exit
        | some c => .started c [re]             -- lines 39-45

/-- `main` as it is: the expression is `*` (line 27). -/
def catMain {α : Type} (resolve : GoStr → GoStr → List GoStr → List Re → Option α) (url : GoStr) (args : List GoStr) : CatOut α :=
  catMainWith (str "*") resolve url args

end Verif
