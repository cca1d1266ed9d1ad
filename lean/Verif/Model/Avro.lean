import Verif.Model.Types
/-!
# The Avro binary encoding as done by hamba/avro v1.6.6

The library is not part of `/repo`; this is the Avro 1.x binary format for the three schemas of
`delivery/types.go:58-92`, with hamba's block layout (blocks of at most 100 items, preceded by the negated
item count and the byte size). Behaviour on malformed input (`none` here) is not relied upon anywhere.
-/
namespace Verif.Avro

/-- Two's complement wrap of an integer into 64 bits (Go `int64(x)`). -/
def wrap64 (i : Int) : Int := (i + 9223372036854775808) % 18446744073709551616 - 9223372036854775808

/-- Two's complement wrap into 32 bits (Go `int32(x)`, done by hamba's int codec for Go `int`). -/
def wrap32 (i : Int) : Int := (i + 2147483648) % 4294967296 - 2147483648

/-- Zig-zag coding of signed integers. -/
def zigzag (i : Int) : Nat := if 0 ≤ i then (2 * i).toNat else (-2 * i - 1).toNat

/-- Inverse of zig-zag coding. -/
def unzigzag (n : Nat) : Int := if n % 2 = 0 then (n / 2 : Nat) else -((n / 2 : Nat) : Int) - 1

/-- Variable length coding, seven bits per byte, least significant first. -/
def encVarint (n : Nat) : Bytes :=
  if n < 128 then [UInt8.ofNat n] else UInt8.ofNat (n % 128 + 128) :: encVarint (n / 128)

/-- Reads at most `fuel` bytes of a variable length integer. -/
def decVarint : Nat → Bytes → Option (Nat × Bytes)
  | 0, _ => none
  | _ + 1, [] => none
  | fuel + 1, b :: rest =>
    if b.toNat < 128 then some (b.toNat, rest)
    else do
      let (n, rest') ← decVarint fuel rest
      return ((b.toNat - 128) + 128 * n, rest')

/-- Avro `long`. -/
def encLong (i : Int) : Bytes := encVarint (zigzag (wrap64 i))

/-- Avro `long`: at most ten bytes. -/
def decLong (b : Bytes) : Option (Int × Bytes) := do
  let (n, rest) ← decVarint 10 b
  return (unzigzag (n % 18446744073709551616), rest)

/-- Avro `int`; a Go `int` is truncated to 32 bits first. -/
def encInt (i : Int) : Bytes := encVarint (zigzag (wrap32 i))

/-- Avro `int`: at most five bytes. -/
def decIntR (b : Bytes) : Option (Int × Bytes) := do
  let (n, rest) ← decVarint 5 b
  return (unzigzag (n % 4294967296), rest)

/-- Avro `bytes` and `string`: length, then the bytes. -/
def encBytes (b : Bytes) : Bytes := encLong b.length ++ b

def decBytes (b : Bytes) : Option (Bytes × Bytes) := do
  let (n, rest) ← decLong b
  if n < 0 then none
  else if rest.length < n.toNat then none
  else some (rest.take n.toNat, rest.drop n.toNat)

/-- Avro `fixed` of size 32. -/
def decHash (b : Bytes) : Option (Hash × Bytes) :=
  if h : 32 ≤ b.length then some (⟨b.take 32, by simp; omega⟩, b.drop 32) else none

/-- Avro `boolean`. -/
def encBool (b : Bool) : Bytes := [if b then 1 else 0]

def decBool : Bytes → Option (Bool × Bytes)
  | [] => none
  | b :: rest => some (b == 1, rest)

/-- Avro array/map blocks in hamba's layout: `-count, byte size, items`, ended by a zero count. -/
def encBlocks {α : Type} (enc : α → Bytes) (xs : List α) : Bytes :=
  if _h : xs = [] then encLong 0
  else
    let chunk := xs.take 100
    let body := chunk.flatMap enc
    (if body.length > 0 then encLong (-(chunk.length : Int)) ++ encLong body.length
     else encLong chunk.length) ++ body ++ encBlocks enc (xs.drop 100)
termination_by xs.length
decreasing_by
  have : xs.length ≠ 0 := by simpa using _h
  simp; omega

/-- `count` consecutive items. -/
def decItems {α : Type} (dec : Bytes → Option (α × Bytes)) : Nat → Bytes → Option (List α × Bytes)
  | 0, b => some ([], b)
  | n + 1, b => do
    let (x, b) ← dec b
    let (xs, b) ← decItems dec n b
    return (x :: xs, b)

/-- Blocks until a zero count; `fuel` bounds the number of blocks. -/
def decBlocks {α : Type} (dec : Bytes → Option (α × Bytes)) : Nat → Bytes → Option (List α × Bytes)
  | 0, _ => none
  | fuel + 1, b => do
    let (l, b) ← decLong b
    if l = 0 then return ([], b)
    let (count, b) ← if l < 0 then do
        let (_, b) ← decLong b
        pure ((-l).toNat, b)
      else pure (l.toNat, b)
    let (xs, b) ← decItems dec count b
    let (ys, b) ← decBlocks dec fuel b
    return (xs ++ ys, b)

/-- Record `update` of `batchSchema` with its map key: fields in schema order value, count, delete,
subbatch (`delivery/types.go:73-78`). -/
def encRecord (e : GoStr × BatchRecord) : Bytes :=
  encBytes e.1 ++ encBytes e.2.value ++ encInt e.2.count ++ encBool e.2.delete ++ e.2.subbatch.bytes

def decRecord (b : Bytes) : Option ((GoStr × BatchRecord) × Bytes) :=
  (decBytes b).bind fun k =>
  (decBytes k.2).bind fun value =>
  (decIntR value.2).bind fun count =>
  (decBool count.2).bind fun delete =>
  (decHash delete.2).bind fun subbatch =>
  some ((k.1, { value := value.1, count := count.1, subbatch := subbatch.1, delete := delete.1 }), subbatch.2)

/-- Map entry of `updateSchema` (`delivery/types.go:88`). -/
def encKV (e : GoStr × Bytes) : Bytes := encBytes e.1 ++ encBytes e.2

def decKV (b : Bytes) : Option ((GoStr × Bytes) × Bytes) :=
  (decBytes b).bind fun k =>
  (decBytes k.2).bind fun v =>
  some ((k.1, v.1), v.2)

/-- `Batch.EncodeAvro`, `delivery/types.go:30-35` with `batchSchema` `types.go:59-82`. -/
def encBatch (b : Batch) : Bytes :=
  encLong b.number ++ encBytes b.weight ++ b.parentHash.bytes ++ encBlocks encRecord b.updates.entries

/-- `avro.Unmarshal(batchSchema, …)`, `delivery/types.go:135-139`. -/
def decBatch (b : Bytes) : Option Batch :=
  (decLong b).bind fun number =>
  (decBytes number.2).bind fun weight =>
  (decHash weight.2).bind fun parentHash =>
  (decBlocks decRecord (parentHash.2.length + 1) parentHash.2).bind fun entries =>
  some { number := number.1, weight := weight.1, parentHash := parentHash.1,
         updates := GMap.ofList entries.1 }

/-- `SubBatchRecord.EncodeAvro`, `delivery/types.go:50-55` with `updateSchema` `types.go:83-90`. -/
def encSub (r : SubBatchRecord) : Bytes :=
  encBlocks encBytes r.delete ++ encBlocks encKV r.updates.entries

/-- `avro.Unmarshal(updateSchema, …)`. -/
def decSub (b : Bytes) : Option SubBatchRecord :=
  (decBlocks decBytes (b.length + 1) b).bind fun delete =>
  (decBlocks decKV (delete.2.length + 1) delete.2).bind fun entries =>
  some { delete := delete.1, updates := GMap.ofList entries.1 }

/-- The codec used by the code. -/
def codec : Codec where
  encInt := encInt
  decInt := fun b => (decIntR b).map Prod.fst
  encBatch := encBatch
  decBatch := decBatch
  encSub := encSub
  decSub := decSub

end Verif.Avro
