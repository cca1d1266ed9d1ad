import Verif.Model.Websocket
/-!
# The bytes of a websocket message (`transports/websockets.go:44-83,380-400`)

`Model/Websocket.lean` represents `encoding/json` by its effect on a message that is written and read again
(`TBatch.json`, `TSub.json`). Here the text itself is modelled: what `json.Marshal` writes for the types of
`transports/websockets.go:44-83`, the parser of `json.Unmarshal`, and how the parsed text is put into those types, with
the rules for members that are missing, unknown, repeated, `null` or of the wrong kind.

The code modelled is in the Go standard library and in `cardinal-types`, which are not in `/repo`: `encoding/json`
(encode.go, decode.go, scanner.go), and `hexutil` and `Hash`, taken to be as in go-ethereum. The parser stops at 10000
nested levels in Go; there is no such limit here.
-/
namespace Verif

/-! ## Writing -/

/-- `hex[n]` of encoding/json and `strconv` for `n < 16`: a lower-case digit. -/
def hexLow (n : Nat) : UInt8 := if n < 10 then UInt8.ofNat (48 + n) else UInt8.ofNat (87 + n)

/-- How `json.Marshal` writes an ASCII byte inside a string (`encodeState.string` with HTML escaping): as it is, or
escaped. Newer versions of Go write `\b` and `\f` for two of the control characters where older ones write `\u0008`
and `\u000c`; `short` says which. Used for the strings of `transports/websockets.go:45,55-57,82-83`. -/
def escByte (short : Bool) (b : UInt8) : Bytes :=
  if b = 0x22 || b = 0x5C then [0x5C, b]
  else if b = 0x0A then [0x5C, 0x6E]
  else if b = 0x0D then [0x5C, 0x72]
  else if b = 0x09 then [0x5C, 0x74]
  else if short && b = 0x08 then [0x5C, 0x62]
  else if short && b = 0x0C then [0x5C, 0x66]
  else if b.toNat < 0x20 || b = 0x3C || b = 0x3E || b = 0x26 then
    [0x5C, 0x75, 0x30, 0x30, hexLow (b.toNat / 16), hexLow (b.toNat % 16)]
  else [b]

/-- How `json.Marshal` writes a well-formed sequence of more than one byte: as it is, except for U+2028 and U+2029
(strings of `transports/websockets.go:55-57,82-83`). -/
def escRune (s : Bytes) : Bytes :=
  if s = [0xE2, 0x80, 0xA8] then [0x5C, 0x75, 0x32, 0x30, 0x32, 0x38]
  else if s = [0xE2, 0x80, 0xA9] then [0x5C, 0x75, 0x32, 0x30, 0x32, 0x39]
  else s

/-- The inside of a string literal, with fuel (the length of the input suffices); `\ufffd` for a byte that is not
part of well-formed UTF-8 (strings of `transports/websockets.go:55-57,82-83`). -/
def escAux (short : Bool) : Nat → Bytes → Bytes
  | 0, _ => []
  | _ + 1, [] => []
  | n + 1, b :: r =>
    if b.toNat < 0x80 then escByte short b ++ escAux short n r
    else
      match utf8Size (b :: r) with
      | some k => escRune ((b :: r).take k) ++ escAux short n ((b :: r).drop k)
      | none => [0x5C, 0x75, 0x66, 0x66, 0x66, 0x64] ++ escAux short n r

/-- `encodeState.string` without the quotes (strings of `transports/websockets.go:55-57,82-83`). -/
def escString (short : Bool) (s : GoStr) : Bytes := escAux short s.length s

/-- A string literal around the given text (strings of `transports/websockets.go:55-57,82-83`). -/
def quoted (inside : Bytes) : Bytes := 0x22 :: (inside ++ [0x22])

/-- Values separated by commas (`transports/websockets.go:44-83`). -/
def commaSep : List Bytes → Bytes
  | [] => []
  | [x] => x
  | x :: y :: l => x ++ 0x2C :: commaSep (y :: l)

/-- An array (`Deletes`, `transports/websockets.go:56,82`). -/
def arrText (l : List Bytes) : Bytes := 0x5B :: (commaSep l ++ [0x5D])

/-- A member of an object: the name is given as it stands between the quotes (`transports/websockets.go:44-83`). -/
def memText (e : Bytes × Bytes) : Bytes := quoted e.1 ++ 0x3A :: e.2

/-- An object (`transports/websockets.go:44-83`). -/
def objText (l : List (Bytes × Bytes)) : Bytes := 0x7B :: (commaSep (l.map memText) ++ [0x7D])

/-- `null` (nil maps, slices and pointers without `omitempty`, `transports/websockets.go:50-58`). -/
def nullText : Bytes := [0x6E, 0x75, 0x6C, 0x6C]

/-- The hexadecimal digits of a number without leading zeros, with fuel (`strconv.AppendUint(buf, n, 16)`,
`big.Int.Text(16)`); for `Number` and `Weight`, `transports/websockets.go:51-52`. -/
def hexDigits : Nat → Nat → Bytes
  | 0, _ => []
  | f + 1, n => if n < 16 then [hexLow n] else hexDigits f (n / 16) ++ [hexLow (n % 16)]

/-- `hexutil.Uint64.MarshalText`, `hexutil.EncodeBig` for a number that is not negative (`transports/websockets.go:51-52`). -/
def hexNumber (n : Nat) : Bytes := 0x30 :: 0x78 :: hexDigits (n + 1) n

/-- `hexutil.EncodeBig` (`Weight`, `transports/websockets.go:52`): a minus sign comes before the prefix. -/
def hexBig (n : Int) : Bytes := if n < 0 then 0x2D :: hexNumber n.natAbs else hexNumber n.natAbs

/-- `hexutil.Bytes.MarshalText` (`Values`, `transports/websockets.go:55,81`; hashes, lines 53-54,57,79-80). -/
def hexDataText (b : Bytes) : Bytes := 0x30 :: 0x78 :: b.flatMap (fun x => [hexLow (x.toNat / 16), hexLow (x.toNat % 16)])

/-- What is left open: which version of Go (`escByte`), and whether an empty slice of deletes or an empty map of
sub-batches is `nil` (`transports/websockets.go:146,172` pass on what the application gave). -/
structure JOpt where
  short : Bool
  nilDeletes : Bool
  nilBatches : Bool

/-- A map with string keys (`transports/websockets.go:55,57,81`), its values written by `f`. The keys are sorted as byte strings
(`mapEncoder.encode`). -/
def mapText {V : Type} (w : JOpt) (f : V → Bytes) (m : GMap GoStr V) : Bytes :=
  objText ((m.entries.mergeSort (fun x y => strLe x.1 y.1)).map (fun e => (escString w.short e.1, f e.2)))

/-- `Deletes` (`transports/websockets.go:56,82`). -/
def deletesText (w : JOpt) (l : List GoStr) : Bytes :=
  if l = [] ∧ w.nilDeletes then nullText else arrText (l.map (fun k => quoted (escString w.short k)))

/-- `types.Hash` (`transports/websockets.go:53-54,57,79-80`). -/
def hashText (h : Hash) : Bytes := quoted (hexDataText h.bytes)

/-- `json.Marshal` of a `TransportBatch`, `transports/websockets.go:50-58`; no weight is a nil pointer. -/
def batchText (number : Nat) (weight : Option Int) (hash parent : Hash) (values : Bytes) (deletes : Bytes)
    (batches : Bytes) : Bytes :=
  objText [
    (str "number", quoted (hexNumber number)),
    (str "weight", match weight with | none => nullText | some x => quoted (hexBig x)),
    (str "hash", hashText hash),
    (str "parent", hashText parent),
    (str "values", values),
    (str "deletes", deletes),
    (str "batches", batches)]

/-- The batch of a message of type `batch`, `transports/websockets.go:141-149`, `212-220` and `256-264`. -/
def TBatch.text (w : JOpt) (b : TBatch) : Bytes :=
  batchText b.number (some b.weight) b.hash b.parentHash (mapText w (fun v => quoted (hexDataText v)) b.values)
    (deletesText w b.deletes)
    (if b.batches.entries = [] ∧ w.nilBatches then nullText else mapText w hashText b.batches)

/-- `json.Marshal` of a `transportSubbatch`, `transports/websockets.go:78-83`. -/
def TSub.text (w : JOpt) (s : TSub) : Bytes :=
  objText [
    (str "hash", hashText s.hash),
    (str "batchid", hashText s.batchId),
    (str "values", mapText w (fun v => quoted (hexDataText v)) s.values),
    (str "deletes", deletesText w s.deletes)]

/-- `json.Marshal` of a `resultMessage`, `transports/websockets.go:44-48`: `ready` (line 271), `reorg` (lines 182-188, where the
other members of the batch are zero), `batch` (lines 139-150) and `subbatch` (lines 167-175). `none`: no such message is
ever sent. -/
def WMsg.text (w : JOpt) : WMsg → Option Bytes
  | .ready => some (objText [(str "type", quoted (str "ready"))])
  | .reorg n h => some (objText [(str "type", quoted (str "reorg")),
      (str "batch", batchText n none h Hash.zero nullText nullText nullText)])
  | .batch b => some (objText [(str "type", quoted (str "batch")), (str "batch", b.text w)])
  | .sub s => some (objText [(str "type", quoted (str "subbatch")), (str "subbatch", s.text w)])
  | .hollow => none
  | .unknown => none

/-- The notification around a result, as `rpc.SubscriptionResponse` of cardinal-rpc is taken to be written; it is read at
`transports/websockets.go:390-400`. -/
def noteText (subid : Nat) (result : Bytes) : Bytes :=
  objText [
    (str "jsonrpc", quoted (str "2.0")),
    (str "method", quoted (str "cardinal_subscribe")),
    (str "params", objText [(str "subscription", quoted (hexNumber subid)), (str "result", result)])]

/-! ## Parsing -/

/-- A parsed text. String literals are kept as they stand between their quotes: `hexutil` looks at them before escapes are
undone. The names of members are decoded, since they are only ever compared or used as map keys
(`json.Unmarshal` at `transports/websockets.go:390,400`). -/
inductive Json where
  | null
  | bool (b : Bool)
  | num (text : Bytes)
  | str (raw : Bytes)
  | arr (l : List Json)
  | obj (l : List (GoStr × Json))

/-- `isSpace` of encoding/json (`transports/websockets.go:390,400`). -/
def isWs (b : UInt8) : Bool := b = 0x20 || b = 0x09 || b = 0x0D || b = 0x0A

/-- White space is skipped (`transports/websockets.go:390,400`). -/
def skipWs (s : Bytes) : Bytes := s.dropWhile isWs

/-- The value of a hexadecimal digit, either case (`getu4`, `decodeNibble`). -/
def nibble (b : UInt8) : Option Nat :=
  if 0x30 ≤ b.toNat ∧ b.toNat ≤ 0x39 then some (b.toNat - 0x30)
  else if 0x61 ≤ b.toNat ∧ b.toNat ≤ 0x66 then some (b.toNat - 0x57)
  else if 0x41 ≤ b.toNat ∧ b.toNat ≤ 0x46 then some (b.toNat - 0x37)
  else none

/-- The states of the scanner inside a string: `stateInString`, `stateInStringEsc` and `stateInStringEscU…` with the number
of digits still to come (`transports/websockets.go:390,400`). -/
inductive SState where
  | str
  | esc
  | digits (left : Nat)

/-- The text of a string literal up to its closing quote, and what follows (scanner.go of encoding/json, called at
`transports/websockets.go:390,400`). -/
def scanStr : SState → Bytes → Option (Bytes × Bytes)
  | _, [] => none
  | .str, c :: r =>
    if c = 0x22 then some ([], r)
    else if c.toNat < 0x20 then none
    else (scanStr (if c = 0x5C then .esc else .str) r).map (fun p => (c :: p.1, p.2))
  | .esc, c :: r =>
    if c = 0x75 then (scanStr (.digits 4) r).map (fun p => (c :: p.1, p.2))
    else if c = 0x62 || c = 0x66 || c = 0x6E || c = 0x72 || c = 0x74 || c = 0x5C || c = 0x2F || c = 0x22 then
      (scanStr .str r).map (fun p => (c :: p.1, p.2))
    else none
  | .digits k, c :: r =>
    match nibble c with
    | none => none
    | some _ => (scanStr (if k ≤ 1 then .str else .digits (k - 1)) r).map (fun p => (c :: p.1, p.2))

/-- `getu4`: four digits after `\u` (`transports/websockets.go:390,400`). -/
def getu4 : Bytes → Option (Nat × Bytes)
  | 0x5C :: 0x75 :: a :: b :: c :: d :: r =>
    match nibble a, nibble b, nibble c, nibble d with
    | some a, some b, some c, some d => some (a * 4096 + b * 256 + c * 16 + d, r)
    | _, _, _, _ => none
  | _ => none

/-- `utf8.EncodeRune` for a code point that is no surrogate. -/
def encodeRune (v : Nat) : Bytes :=
  if v < 0x80 then [UInt8.ofNat v]
  else if v < 0x800 then [UInt8.ofNat (0xC0 + v / 64), UInt8.ofNat (0x80 + v % 64)]
  else if v < 0x10000 then
    [UInt8.ofNat (0xE0 + v / 4096), UInt8.ofNat (0x80 + v / 64 % 64), UInt8.ofNat (0x80 + v % 64)]
  else
    [UInt8.ofNat (0xF0 + v / 262144), UInt8.ofNat (0x80 + v / 4096 % 64), UInt8.ofNat (0x80 + v / 64 % 64),
      UInt8.ofNat (0x80 + v % 64)]

/-- `unquoteBytes` with fuel (the length of the input suffices): undo the escapes, and put U+FFFD for what is not UTF-8 and
for surrogates that do not pair up. `none` if the text is no string literal, which the scanner excludes. Called for the
strings of `transports/websockets.go:45,55-57,82-83`. -/
def unquoteAux : Nat → Bytes → Option Bytes
  | 0, _ => some []
  | _ + 1, [] => some []
  | n + 1, c :: r =>
    if c = 0x5C then
      match r with
      | [] => none
      | e :: r' =>
        if e = 0x22 || e = 0x5C || e = 0x2F || e = 0x27 then (unquoteAux n r').map (e :: ·)
        else if e = 0x62 then (unquoteAux n r').map (0x08 :: ·)
        else if e = 0x66 then (unquoteAux n r').map (0x0C :: ·)
        else if e = 0x6E then (unquoteAux n r').map (0x0A :: ·)
        else if e = 0x72 then (unquoteAux n r').map (0x0D :: ·)
        else if e = 0x74 then (unquoteAux n r').map (0x09 :: ·)
        else
          match getu4 (c :: e :: r') with
          | none => none
          | some (v, rest) =>
            if 0xD800 ≤ v ∧ v < 0xE000 then
              match getu4 rest with
              | some (v', rest') =>
                if v < 0xDC00 ∧ 0xDC00 ≤ v' ∧ v' < 0xE000 then
                  (unquoteAux n rest').map (encodeRune ((v - 0xD800) * 1024 + (v' - 0xDC00) + 0x10000) ++ ·)
                else (unquoteAux n rest).map ([0xEF, 0xBF, 0xBD] ++ ·)
              | none => (unquoteAux n rest).map ([0xEF, 0xBF, 0xBD] ++ ·)
            else (unquoteAux n rest).map (encodeRune v ++ ·)
    else if c = 0x22 || c.toNat < 0x20 then none
    else if c.toNat < 0x80 then (unquoteAux n r).map (c :: ·)
    else
      match utf8Size (c :: r) with
      | some k => (unquoteAux n ((c :: r).drop k)).map ((c :: r).take k ++ ·)
      | none => (unquoteAux n r).map ([0xEF, 0xBF, 0xBD] ++ ·)

/-- `unquoteBytes` (strings of `transports/websockets.go:45,55-57,82-83`). -/
def unquote (raw : Bytes) : Option GoStr := unquoteAux raw.length raw

/-- A decimal digit. -/
def isDigit (b : UInt8) : Bool := 0x30 ≤ b.toNat && b.toNat ≤ 0x39

/-- One or more digits. -/
def scanDigits (s : Bytes) : Option (Bytes × Bytes) :=
  if s.takeWhile isDigit = [] then none else some (s.takeWhile isDigit, s.dropWhile isDigit)

/-- The digits before the point: no leading zero (scanner.go, `state0`, `state1`). -/
def scanInt : Bytes → Option (Bytes × Bytes)
  | [] => none
  | c :: r => if c = 0x30 then some ([c], r) else scanDigits (c :: r)

/-- The part after the point. -/
def scanFrac : Bytes → Option (Bytes × Bytes)
  | [] => some ([], [])
  | c :: r => if c = 0x2E then (scanDigits r).map (fun p => (c :: p.1, p.2)) else some ([], c :: r)

/-- The exponent. -/
def scanExp : Bytes → Option (Bytes × Bytes)
  | [] => some ([], [])
  | c :: r =>
    if c = 0x65 || c = 0x45 then
      match r with
      | [] => none
      | d :: r' =>
        if d = 0x2B || d = 0x2D then (scanDigits r').map (fun p => (c :: d :: p.1, p.2))
        else (scanDigits (d :: r')).map (fun p => (c :: p.1, p.2))
    else some ([], c :: r)

/-- A number (scanner.go of encoding/json). No message of this program contains one; they are parsed because a member that is
not known to the program is skipped, whatever its value (`transports/websockets.go:390,400`). -/
def scanNum (s : Bytes) : Option (Bytes × Bytes) :=
  let (sign, s) := match s with
    | c :: r => if c = 0x2D then ([c], r) else ([], c :: r)
    | [] => ([], [])
  match scanInt s with
  | none => none
  | some (i, s) =>
    match scanFrac s with
    | none => none
    | some (f, s) =>
      match scanExp s with
      | none => none
      | some (e, s) => some (sign ++ i ++ f ++ e, s)

/-- `true`, `false` and `null` after their first letter. -/
def scanLit (lit : Bytes) (v : Json) (s : Bytes) : Option (Json × Bytes) :=
  if s.take lit.length = lit then some (v, s.drop lit.length) else none

mutual
/-- A value, with fuel (twice the length of the input and one more suffices): `d.value`, `transports/websockets.go:390,400`. -/
def parseValue : Nat → Bytes → Option (Json × Bytes)
  | 0, _ => none
  | n + 1, s =>
    match skipWs s with
    | [] => none
    | c :: r =>
      if c = 0x7B then
        match skipWs r with
        | [] => none
        | d :: r' => if d = 0x7D then some (.obj [], r') else (parseMembers n (d :: r')).map (fun p => (.obj p.1, p.2))
      else if c = 0x5B then
        match skipWs r with
        | [] => none
        | d :: r' => if d = 0x5D then some (.arr [], r') else (parseElems n (d :: r')).map (fun p => (.arr p.1, p.2))
      else if c = 0x22 then (scanStr .str r).map (fun p => (.str p.1, p.2))
      else if c = 0x74 then scanLit [0x72, 0x75, 0x65] (.bool true) r
      else if c = 0x66 then scanLit [0x61, 0x6C, 0x73, 0x65] (.bool false) r
      else if c = 0x6E then scanLit [0x75, 0x6C, 0x6C] .null r
      else (scanNum (c :: r)).map (fun p => (.num p.1, p.2))
/-- The elements of an array, up to the closing bracket: `d.array`, `transports/websockets.go:390,400`. -/
def parseElems : Nat → Bytes → Option (List Json × Bytes)
  | 0, _ => none
  | n + 1, s =>
    match parseValue n s with
    | none => none
    | some (v, r) =>
      match skipWs r with
      | [] => none
      | d :: r' =>
        if d = 0x2C then (parseElems n r').map (fun p => (v :: p.1, p.2))
        else if d = 0x5D then some ([v], r')
        else none
/-- The members of an object, up to the closing brace: `d.object`, `transports/websockets.go:390,400`. -/
def parseMembers : Nat → Bytes → Option (List (GoStr × Json) × Bytes)
  | 0, _ => none
  | n + 1, s =>
    match skipWs s with
    | [] => none
    | c :: r =>
      if c = 0x22 then
        match scanStr .str r with
        | none => none
        | some (raw, r) =>
          match unquote raw, skipWs r with
          | some k, 0x3A :: r =>
            match parseValue n r with
            | none => none
            | some (v, r) =>
              match skipWs r with
              | [] => none
              | d :: r' =>
                if d = 0x2C then (parseMembers n r').map (fun p => ((k, v) :: p.1, p.2))
                else if d = 0x7D then some ([(k, v)], r')
                else none
          | _, _ => none
      else none
end

/-- A whole text: a value with nothing but white space after it (`checkValid`, called first by `json.Unmarshal`,
`transports/websockets.go:390,400`). -/
def parseJson (s : Bytes) : Option Json :=
  match parseValue (2 * s.length + 2) s with
  | some (j, r) => if skipWs r = [] then some j else none
  | none => none

/-! ## Putting parsed text into Go values

`json.Unmarshal` behaves in two ways when a value does not fit: for the types of `hexutil` and for hashes, whose `UnmarshalJSON`
reports an error, it stops at once and leaves the members that follow as they were; for a string, a slice, a map or a struct it
notes the error and carries on. The error is ignored at `transports/websockets.go:390,400`, so both matter.
`Put α` is the value as far as it has got, and whether to carry on. -/

/-- A value being filled, and whether `d.value` returned without an error. -/
abbrev Put (α : Type) := α × Bool

/-- `0x` or `0X` (`has0xPrefix`), and what follows. -/
def strip0x : Bytes → Option Bytes
  | a :: b :: r => if a = 0x30 ∧ (b = 0x78 ∨ b = 0x58) then some r else none
  | _ => none

/-- The value of hexadecimal digits. -/
def hexValue : Nat → Bytes → Option Nat
  | acc, [] => some acc
  | acc, c :: r =>
    match nibble c with
    | none => none
    | some d => hexValue (acc * 16 + d) r

/-- `checkNumberText` and the digits, at most `max` of them: `hexutil.Uint64` (16) and `hexutil.Big` (64),
`transports/websockets.go:51-52`. The empty text is zero. -/
def hexNum (max : Nat) (raw : Bytes) : Option Nat :=
  if raw = [] then some 0
  else
    match strip0x raw with
    | none => none
    | some d =>
      if d = [] then none
      else if 1 < d.length ∧ d.head? = some 0x30 then none
      else if max < d.length then none
      else hexValue 0 d

/-- Pairs of digits. -/
def hexPairs : Bytes → Option Bytes
  | [] => some []
  | [_] => none
  | a :: b :: r =>
    match nibble a, nibble b, hexPairs r with
    | some a, some b, some l => some (UInt8.ofNat (a * 16 + b) :: l)
    | _, _, _ => none

/-- `checkText` and the digits: `hexutil.Bytes.UnmarshalText` (`transports/websockets.go:55,81`). The empty text is no bytes. -/
def hexData (raw : Bytes) : Option Bytes :=
  if raw = [] then some []
  else
    match strip0x raw with
    | none => none
    | some d => hexPairs d

/-- `hexutil.Uint64.UnmarshalJSON` (`Number`, `transports/websockets.go:51`). -/
def decUint64 : Json → Option Nat
  | .str raw => hexNum 16 raw
  | _ => none

/-- `hexutil.Bytes.UnmarshalJSON` (`Values`, `transports/websockets.go:55,81`). -/
def decBytes : Json → Option Bytes
  | .str raw => hexData raw
  | _ => none

/-- `types.Hash.UnmarshalJSON` (`transports/websockets.go:53-54,57,79-80`): exactly 32 bytes. -/
def decHash : Json → Option Hash
  | .str raw =>
    match hexData raw with
    | none => none
    | some b => if h : b.length = 32 then some ⟨b, h⟩ else none
  | _ => none

/-- A value of a type with `UnmarshalJSON`: on an error it stays as it is, and the decoder stops. -/
def putWith {α : Type} (d : Option α) (old : α) : Put α :=
  match d with
  | some x => (x, true)
  | none => (old, false)

/-- `*hexutil.Big` (`Weight`, `transports/websockets.go:52`): `null` is nil; otherwise the number is allocated before it is read. -/
def putBig (old : Option Nat) : Json → Put (Option Nat)
  | .null => (none, true)
  | .str raw =>
    match hexNum 64 raw with
    | some n => (some n, true)
    | none => (some (old.getD 0), false)
  | _ => (some (old.getD 0), false)

/-- A string (`Type`, `transports/websockets.go:45`): anything but a string leaves it as it is. -/
def putString (old : GoStr) : Json → GoStr
  | .str raw => (unquote raw).getD old
  | _ => old

/-- The entries of a map, `d.object`: an element that cannot be read stops the decoder before it is stored. -/
def putEntries {V : Type} (d : Json → Option V) : GMap GoStr V → List (GoStr × Json) → Put (GMap GoStr V)
  | m, [] => (m, true)
  | m, (k, j) :: l =>
    match d j with
    | some v => putEntries d (m.insert k v) l
    | none => (m, false)

/-- A map (`transports/websockets.go:55,57,81`): `null` is nil, an object adds its entries to what is there, anything else leaves
it as it is. -/
def putMap {V : Type} (d : Json → Option V) (old : GMap GoStr V) : Json → Put (GMap GoStr V)
  | .null => (GMap.empty, true)
  | .obj l => putEntries d old l
  | _ => (old, true)

/-- A slice of strings (`transports/websockets.go:56,82`): `null` is nil, an array replaces what is there, anything else leaves it as
it is. An element that is no string is the empty string (if the member occurs twice, Go may keep an element of the first
occurrence instead). -/
def putStrings (old : List GoStr) : Json → List GoStr
  | .null => []
  | .arr l => l.map (putString [])
  | _ => old

/-- Case folding of member names (`foldName`): ASCII letters, and the two other characters that fold to one, U+017F and U+212A; with fuel
(the length of the input suffices). -/
def foldAux : Nat → Bytes → Bytes
  | 0, _ => []
  | _ + 1, [] => []
  | n + 1, c :: r =>
    if c = 0xC5 ∧ r.head? = some 0xBF then 0x73 :: foldAux n (r.drop 1)
    else if c = 0xE2 ∧ r.take 2 = [0x84, 0xAA] then 0x6B :: foldAux n (r.drop 2)
    else (if 0x41 ≤ c.toNat ∧ c.toNat ≤ 0x5A then UInt8.ofNat (c.toNat + 32) else c) :: foldAux n r

/-- `foldName` (`transports/websockets.go:390,400`). -/
def foldKey (s : Bytes) : Bytes := foldAux s.length s

/-- Whether a member name names a field: as it is or up to case. No two fields of one struct here differ in case only, so trying exact
names first makes no difference. -/
def isField (name : String) (key : GoStr) : Bool := foldKey key = str name

/-- The members of an object into a struct, `d.object`: in order, until one stops the decoder. -/
def putMembers {α : Type} (f : α → GoStr → Json → Put α) : α → List (GoStr × Json) → Put α
  | x, [] => (x, true)
  | x, (k, j) :: l =>
    match f x k j with
    | (y, true) => putMembers f y l
    | (y, false) => (y, false)

/-- A pointer to a struct (`transports/websockets.go:46-47`): `null` is nil, anything else allocates. -/
def putPtr {α : Type} (zero : α) (f : α → GoStr → Json → Put α) (old : Option α) : Json → Put (Option α)
  | .null => (none, true)
  | .obj l => ((some (putMembers f (old.getD zero) l).1), (putMembers f (old.getD zero) l).2)
  | _ => (some (old.getD zero), true)

/-- `TransportBatch` as decoded, `transports/websockets.go:50-58`. -/
structure JBatch where
  number : Nat
  weight : Option Nat
  hash : Hash
  parentHash : Hash
  values : GMap GoStr Bytes
  deletes : List GoStr
  batches : GMap GoStr Hash

/-- The zero value. -/
def JBatch.zero : JBatch := ⟨0, none, Hash.zero, Hash.zero, GMap.empty, [], GMap.empty⟩

/-- One member of a `TransportBatch`, `transports/websockets.go:50-58`. -/
def JBatch.member (b : JBatch) (k : GoStr) (j : Json) : Put JBatch :=
  if isField "number" k then let p := putWith (decUint64 j) b.number; ({ b with number := p.1 }, p.2)
  else if isField "weight" k then let p := putBig b.weight j; ({ b with weight := p.1 }, p.2)
  else if isField "hash" k then let p := putWith (decHash j) b.hash; ({ b with hash := p.1 }, p.2)
  else if isField "parent" k then let p := putWith (decHash j) b.parentHash; ({ b with parentHash := p.1 }, p.2)
  else if isField "values" k then let p := putMap decBytes b.values j; ({ b with values := p.1 }, p.2)
  else if isField "deletes" k then ({ b with deletes := putStrings b.deletes j }, true)
  else if isField "batches" k then let p := putMap decHash b.batches j; ({ b with batches := p.1 }, p.2)
  else (b, true)

/-- The zero value of `transportSubbatch`, `transports/websockets.go:78-83`. -/
def TSub.zero : TSub := ⟨Hash.zero, Hash.zero, GMap.empty, []⟩

/-- One member of a `transportSubbatch`, `transports/websockets.go:78-83`. -/
def TSub.member (s : TSub) (k : GoStr) (j : Json) : Put TSub :=
  if isField "hash" k then let p := putWith (decHash j) s.hash; ({ s with hash := p.1 }, p.2)
  else if isField "batchid" k then let p := putWith (decHash j) s.batchId; ({ s with batchId := p.1 }, p.2)
  else if isField "values" k then let p := putMap decBytes s.values j; ({ s with values := p.1 }, p.2)
  else if isField "deletes" k then ({ s with deletes := putStrings s.deletes j }, true)
  else (s, true)

/-- `resultMessage` as decoded, `transports/websockets.go:44-48`. -/
structure JItem where
  type : GoStr
  batch : Option JBatch
  sub : Option TSub

/-- The zero value (`var item resultMessage`, `transports/websockets.go:399`). -/
def JItem.zero : JItem := ⟨[], none, none⟩

/-- One member of a `resultMessage`, `transports/websockets.go:44-48`. -/
def JItem.member (i : JItem) (k : GoStr) (j : Json) : Put JItem :=
  if isField "type" k then ({ i with type := putString i.type j }, true)
  else if isField "batch" k then let p := putPtr JBatch.zero JBatch.member i.batch j; ({ i with batch := p.1 }, p.2)
  else if isField "subbatch" k then let p := putPtr TSub.zero TSub.member i.sub j; ({ i with sub := p.1 }, p.2)
  else (i, true)

/-- `json.Unmarshal(notification.Params.Result, &item)`, `transports/websockets.go:400`; the error is ignored. `none`: the result is
nil, which is no JSON text. -/
def decItem : Option Json → JItem
  | some (.obj l) => (putMembers JItem.member JItem.zero l).1
  | _ => JItem.zero

/-- What the switch at `transports/websockets.go:401-466` sees. `none`: a block without a weight, which is handed on with a nil
pointer; the rest of the model has a number there. -/
def JItem.msg (i : JItem) : Option WMsg :=
  if i.type = str "ready" then some .ready
  else if i.type = str "reorg" then
    match i.batch with
    | none => some .hollow
    | some b => some (.reorg b.number b.hash)
  else if i.type = str "batch" then
    match i.batch with
    | none => some .hollow
    | some b =>
      match b.weight with
      | none => none
      | some w => some (.batch ⟨b.number, w, b.hash, b.parentHash, b.values, b.deletes, b.batches⟩)
  else if i.type = str "subbatch" then
    match i.sub with
    | none => some .hollow
    | some s => some (.sub s)
  else some .unknown

/-- The variable `notification` of `transports/websockets.go:375`: `rpc.SubscriptionResponseRaw` of cardinal-rpc, taken to have the
members `jsonrpc`, `method` and `params`, and in it `subscription` and `result`. -/
structure JNote where
  version : GoStr
  method : GoStr
  id : Nat
  result : Option Json

/-- The zero value, `transports/websockets.go:375`. -/
def JNote.zero : JNote := ⟨[], [], 0, none⟩

/-- One member of the params. -/
def JNote.param (n : JNote) (k : GoStr) (j : Json) : Put JNote :=
  if isField "subscription" k then let p := putWith (decUint64 j) n.id; ({ n with id := p.1 }, p.2)
  else if isField "result" k then ({ n with result := some j }, true)
  else (n, true)

/-- One member of the notification. -/
def JNote.member (n : JNote) (k : GoStr) (j : Json) : Put JNote :=
  if isField "jsonrpc" k then ({ n with version := putString n.version j }, true)
  else if isField "method" k then ({ n with method := putString n.method j }, true)
  else if isField "params" k then
    match j with
    | .obj l => putMembers JNote.param n l
    | _ => (n, true)
  else (n, true)

/-- `json.Unmarshal(message, &notification)`, `transports/websockets.go:390`; the error is ignored. -/
def JNote.read (n : JNote) (message : Bytes) : JNote :=
  match parseJson message with
  | some (.obj l) => (putMembers JNote.member n l).1
  | _ => n

/-- Lines 391-400 of `transports/websockets.go`: the item to be handled after a message, `none` if the loop goes on to the next one. -/
def JNote.item (subid : Nat) (n : JNote) : Option JItem :=
  if n.method = str "cardinal_subscribe" ∧ n.id = subid then some (decItem n.result) else none

/-- The read loop on the bytes that arrive, `transports/websockets.go:380-467`. `none`: a block without a weight has been handed on,
and the rest is not modelled (`JItem.msg`). -/
def WConn.bytes (o : Nat → MapOrder) (subid : Nat) (c : WConn) (n : JNote) : List Bytes → Option (Except Fault WConn)
  | [] => some (.ok c)
  | b :: bs =>
    if b = [] then WConn.bytes (fun k => o (k + 1)) subid c n bs
    else
      match (n.read b).item subid with
      | none => WConn.bytes (fun k => o (k + 1)) subid c (n.read b) bs
      | some i =>
        match i.msg with
        | none => none
        | some m =>
          match c.step (o 0) m with
          | .error f => some (.error f)
          | .ok d => WConn.bytes (fun k => o (k + 1)) subid d (n.read b) bs

end Verif
