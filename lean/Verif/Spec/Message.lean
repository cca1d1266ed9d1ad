import Verif.Spec.Json
import Verif.Model.Websocket
/-!
# What a JSON text says to a websocket consumer

The contents of the notifications that `transports/websockets.go:380-466` handles, in whatever form they are written.
-/
namespace Verif.Spec

/-- The first is a way to write the member name that is the second: letters in either case, U+017F for an `s`, U+212A for a `k`. -/
inductive Spelled : Bytes → Bytes → Prop
  | nil : Spelled [] []
  | same {c : UInt8} {s n : Bytes} : Spelled s n → Spelled (c :: s) (c :: n)
  | upper {i : Nat} {s n : Bytes} : i < 26 → Spelled s n → Spelled (UInt8.ofNat (0x41 + i) :: s) (UInt8.ofNat (0x61 + i) :: n)
  | longS {s n : Bytes} : Spelled s n → Spelled (0xC5 :: 0xBF :: s) (0x73 :: n)
  | kelvin {s n : Bytes} : Spelled s n → Spelled (0xE2 :: 0x84 :: 0xAA :: s) (0x6B :: n)

/-- The object has one member of that name, with that value. -/
def Has (l : List (GoStr × Json)) (name : String) (j : Json) : Prop :=
  ∃ a key b, l = a ++ (key, j) :: b ∧ Spelled key (str name) ∧ ∀ e ∈ a ++ b, ¬ Spelled e.1 (str name)

/-- The object has no member of that name. -/
def Lacks (l : List (GoStr × Json)) (name : String) : Prop := ∀ e ∈ l, ¬ Spelled e.1 (str name)

/-- Hexadecimal digits, the most significant first, and their number. -/
inductive HexNat : Bytes → Nat → Prop
  | nil : HexNat [] 0
  | snoc {ds : Bytes} {n : Nat} {c : UInt8} {d : Nat} : HexNat ds n → HexDigit c d → HexNat (ds ++ [c]) (16 * n + d)

/-- `0x` or `0X`. -/
def Prefix (p : Bytes) : Prop := p = str "0x" ∨ p = str "0X"

/-- A number as `hexutil` reads it: a prefix and digits, of which there are at most `max` and of which the first is not zero unless it is the only
one. The empty string is zero. -/
def NumberOf (max : Nat) (raw : Bytes) (n : Nat) : Prop :=
  raw = [] ∧ n = 0 ∨
  ∃ p ds, raw = p ++ ds ∧ Prefix p ∧ ds ≠ [] ∧ ds.length ≤ max ∧ (ds.head? = some 0x30 → ds.length = 1) ∧ HexNat ds n

/-- Pairs of hexadecimal digits and their bytes. -/
inductive HexBytes : Bytes → Bytes → Prop
  | nil : HexBytes [] []
  | cons {a b : UInt8} {x y : Nat} {ds bs : Bytes} : HexDigit a x → HexDigit b y → HexBytes ds bs → HexBytes (a :: b :: ds) (UInt8.ofNat (16 * x + y) :: bs)

/-- Bytes as `hexutil` reads them. The empty string is no bytes. -/
def DataOf (raw : Bytes) (b : Bytes) : Prop := raw = [] ∧ b = [] ∨ ∃ p ds, raw = p ++ ds ∧ Prefix p ∧ HexBytes ds b

/-- A hash: 32 bytes. -/
def HashOf (raw : Bytes) (h : Hash) : Prop := DataOf raw h.bytes

/-- A member that is a string read by `D`; the zero value if it is missing. -/
def Field {α : Type} (D : Bytes → α → Prop) (zero : α) (l : List (GoStr × Json)) (name : String) (x : α) : Prop :=
  Lacks l name ∧ x = zero ∨ ∃ raw, Has l name (.str raw) ∧ D raw x

/-- A member that is an object whose values are strings read by `D`, as a function; of entries with the same name the last one counts. Nothing if it is
missing or `null`. -/
def MapField {V : Type} (D : Bytes → V → Prop) (l : List (GoStr × Json)) (name : String) (m : GoStr → Option V) : Prop :=
  (Lacks l name ∨ Has l name .null) ∧ (∀ k, m k = none) ∨
  ∃ ps : List (GoStr × Bytes × V), Has l name (.obj (ps.map (fun p => (p.1, .str p.2.1)))) ∧ (∀ p ∈ ps, D p.2.1 p.2.2) ∧
    ∀ k v, m k = some v ↔ ∃ a raw b, ps = a ++ (k, raw, v) :: b ∧ ∀ p ∈ b, p.1 ≠ k

/-- A member that is an array of strings. Nothing if it is missing or `null`. -/
def ListField (l : List (GoStr × Json)) (name : String) (ks : List GoStr) : Prop :=
  (Lacks l name ∨ Has l name .null) ∧ ks = [] ∨
  ∃ ps : List (Bytes × GoStr), Has l name (.arr (ps.map (fun p => .str p.1))) ∧ (∀ p ∈ ps, StringText True p.1 p.2) ∧ ks = ps.map Prod.snd

/-- The contents of a member `batch`. -/
structure Block where
  number : Nat
  weight : Option Nat
  hash : Hash
  parent : Hash
  values : GoStr → Option Bytes
  deletes : List GoStr
  batches : GoStr → Option Hash

/-- An object is a block with these contents. -/
def BlockSays (l : List (GoStr × Json)) (b : Block) : Prop :=
  Field (NumberOf 16) 0 l "number" b.number ∧
  ((Lacks l "weight" ∨ Has l "weight" .null) ∧ b.weight = none ∨ ∃ raw w, Has l "weight" (.str raw) ∧ NumberOf 64 raw w ∧ b.weight = some w) ∧
  Field HashOf Hash.zero l "hash" b.hash ∧ Field HashOf Hash.zero l "parent" b.parent ∧
  MapField DataOf l "values" b.values ∧ ListField l "deletes" b.deletes ∧ MapField HashOf l "batches" b.batches

/-- The contents of a member `subbatch`. -/
structure Part where
  hash : Hash
  batchid : Hash
  values : GoStr → Option Bytes
  deletes : List GoStr

/-- An object is a part of a block with these contents. -/
def PartSays (l : List (GoStr × Json)) (s : Part) : Prop :=
  Field HashOf Hash.zero l "hash" s.hash ∧ Field HashOf Hash.zero l "batchid" s.batchid ∧
  MapField DataOf l "values" s.values ∧ ListField l "deletes" s.deletes

/-- A member that is an object; nothing if it is missing or `null`. -/
def ObjField {α : Type} (S : List (GoStr × Json) → α → Prop) (l : List (GoStr × Json)) (name : String) : Option α → Prop
  | none => Lacks l name ∨ Has l name .null
  | some x => ∃ l', Has l name (.obj l') ∧ S l' x

/-- An object is a message of type `type` with a block and a part. -/
def ItemSays (l : List (GoStr × Json)) (type : GoStr) (block : Option Block) (part : Option Part) : Prop :=
  Field (StringText True) [] l "type" type ∧ ObjField BlockSays l "batch" block ∧ ObjField PartSays l "subbatch" part

/-- An object is a notification for the subscription `subid`, with that result. -/
def NoteSays (l : List (GoStr × Json)) (subid : Nat) (result : List (GoStr × Json)) : Prop :=
  ∃ method params sub, Has l "method" (.str method) ∧ StringText True method (str "cardinal_subscribe") ∧ Has l "params" (.obj params) ∧
    Has params "subscription" (.str sub) ∧ NumberOf 16 sub subid ∧ Has params "result" (.obj result)

/-- The message that a type, a block and a part amount to. -/
def Meant (type : GoStr) (block : Option Block) (part : Option Part) : WMsg → Prop
  | .ready => type = str "ready"
  | .reorg n h => type = str "reorg" ∧ ∃ b, block = some b ∧ b.number = n ∧ b.hash = h
  | .batch t => type = str "batch" ∧ ∃ b w, block = some b ∧ b.weight = some w ∧ t.number = b.number ∧ t.weight = w ∧ t.hash = b.hash ∧ t.parentHash = b.parent ∧
      (∀ k, t.values.get? k = b.values k) ∧ t.deletes = b.deletes ∧ ∀ k, t.batches.get? k = b.batches k
  | .sub t => type = str "subbatch" ∧ ∃ s, part = some s ∧ t.hash = s.hash ∧ t.batchId = s.batchid ∧ (∀ k, t.values.get? k = s.values k) ∧ t.deletes = s.deletes
  | .hollow => (type = str "reorg" ∨ type = str "batch") ∧ block = none ∨ type = str "subbatch" ∧ part = none
  | .unknown => ∀ t ∈ [str "ready", str "reorg", str "batch", str "subbatch"], type ≠ t

end Verif.Spec
