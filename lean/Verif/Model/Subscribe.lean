import Verif.Model.JsonText
/-!
# The bytes of a subscription (`transports/websockets.go:337-373`)

On a new connection the consumer sends a call of `cardinal_subscribe` and reads messages until one of them is the answer to it. The types of the
call and of the answer are those of cardinal-rpc, which is not in `/repo`; they are taken to have the members of JSON-RPC: `jsonrpc`, `id`,
`method` and `params` in a call, `jsonrpc`, `id`, `result` and `error` in an answer. `id` is a `json.RawMessage` (`string(response.ID)`, line 359), `result` an
`interface{}` (line 360).
-/
namespace Verif

/-- The call written by `json.Marshal(call)`, `transports/websockets.go:337-344`; `id` is the text of `call.ID`. -/
def requestText (id : Bytes) (num : Nat) (hash : Hash) : Bytes :=
  objText [
    (str "jsonrpc", quoted (str "2.0")),
    (str "id", id),
    (str "method", quoted (str "cardinal_subscribe")),
    (str "params", arrText [quoted (str "streams"), quoted (hexNumber num), hashText hash])]

/-- The answer that a server writes: `rpc.Response` with the subscription id as its result (read at `transports/websockets.go:353-368`). -/
def answerText (id : Bytes) (subid : Nat) : Bytes :=
  objText [(str "jsonrpc", quoted (str "2.0")), (str "id", id), (str "result", quoted (hexNumber subid))]

/-- The text of a value that is neither an array nor an object, as it stands in a message (`string(response.ID)`,
`transports/websockets.go:359`). The id of a call is a string or a number, so the text of an array or an object is never equal to it. -/
def Json.plainText : Json → Option Bytes
  | .null => some nullText
  | .bool true => some (Verif.str "true")
  | .bool false => some (Verif.str "false")
  | .num text => some text
  | .str raw => some (quoted raw)
  | .arr _ => none
  | .obj _ => none

/-- What the libraries accept as `result`, unless it is a string (an `interface{}` takes everything but numbers beyond the range of float64), and
as `error` (`json.Unmarshal` at `transports/websockets.go:354`). -/
structure AnswerLib where
  result : Json → Bool
  error : Json → Bool

/-- `rpc.Response` as far as it has been decoded, and whether an error was noted; none of the members stops the decoder
(`transports/websockets.go:353-354`). -/
structure JAnswer where
  id : Option Json
  result : Option Json
  failed : Bool

/-- The zero value, `transports/websockets.go:353`. -/
def JAnswer.zero : JAnswer := ⟨none, none, false⟩

/-- One member of an answer, `transports/websockets.go:354`. A later member of the same name replaces an earlier one. -/
def JAnswer.member (lib : AnswerLib) (a : JAnswer) (k : GoStr) (j : Json) : JAnswer :=
  if isField "jsonrpc" k then
    match j with
    | .null => a
    | .str _ => a
    | _ => { a with failed := true }
  else if isField "id" k then { a with id := some j }
  else if isField "result" k then
    match j with
    | .str _ => { a with result := some j }
    | _ => { a with result := some j, failed := a.failed || !lib.result j }
  else if isField "error" k then { a with failed := a.failed || !lib.error j }
  else a

/-- `json.Unmarshal(message, &response)`, `transports/websockets.go:353-354`; `none` if it returns an error. -/
def readAnswer (lib : AnswerLib) (message : Bytes) : Option JAnswer :=
  match parseJson message with
  | some .null => some JAnswer.zero
  | some (.obj l) =>
    let a := l.foldl (fun a e => a.member lib e.1 e.2) JAnswer.zero
    if a.failed then none else some a
  | _ => none

/-- `hexutil.DecodeUint64`, `transports/websockets.go:362`: here the empty string is an error. -/
def decodeUint64 (s : GoStr) : Option Nat := if s = [] then none else hexNum 16 s

/-- One round of the loop of `transports/websockets.go:346-373` in which `ReadMessage` returns a message: the subscription id if the message
is the answer to the call. -/
def answered (lib : AnswerLib) (id : Bytes) (message : Bytes) : Option Nat :=
  match readAnswer lib message with
  | none => none
  | some a =>
    if a.id.bind Json.plainText = some id then
      match a.result with
      | some (.str raw) =>
        match unquote raw with
        | some s => decodeUint64 s
        | none => none
      | _ => none
    else none

/-- The loop of `transports/websockets.go:346-373`: the subscription id and the messages left, `none` while it waits. -/
def awaitAnswer (lib : AnswerLib) (id : Bytes) : List Bytes → Option (Nat × List Bytes)
  | [] => none
  | m :: ms =>
    match answered lib id m with
    | some subid => some (subid, ms)
    | none => awaitAnswer lib id ms

/-- A connection on which these messages arrive, from the call on, `transports/websockets.go:334-467`. The first `none` is that of `WConn.bytes`. While there
is no answer nothing happens to the consumer. -/
def WConn.connection (o : Nat → MapOrder) (lib : AnswerLib) (id : Bytes) (c : WConn) (ms : List Bytes) : Option (Except Fault WConn) :=
  match awaitAnswer lib id ms with
  | none => some (.ok c.reconnect)
  | some (subid, rest) => c.reconnect.bytes o subid JNote.zero rest

/-- What the server makes of the elements of `params`, `transports/websockets.go:225`: cardinal-rpc is taken to decode each into the type of its parameter,
`hexutil.Uint64` and `types.Hash`. -/
def requestArgs : List Json → Option (Nat × Hash)
  | [_, n, h] =>
    match decUint64 n, decHash h with
    | some n, some h => some (n, h)
    | _, _ => none
  | _ => none

end Verif
