import Verif.Model.Go
/-!
# `delivery/types.go`, `delivery/errors.go`: messages, keys and the wire codec
-/
namespace Verif

/-- `delivery.BatchRecord`, `delivery/types.go:37-42`. `Count` is a Go `int`. -/
structure BatchRecord where
  value : Bytes := []
  count : Int := 0
  subbatch : Hash := Hash.zero
  delete : Bool := false
deriving DecidableEq

/-- `delivery.Batch`, `delivery/types.go:22-28`. The `Hash` field is not part of the wire schema; it is
only set on the receiving side from the key and is therefore left out here. -/
structure Batch where
  number : Int
  weight : Bytes
  parentHash : Hash
  updates : GMap GoStr BatchRecord

/-- `delivery.SubBatchRecord`, `delivery/types.go:45-48`. -/
structure SubBatchRecord where
  delete : List GoStr
  updates : GMap GoStr Bytes

/-- `delivery.MessageType`, `delivery/types.go:95-106` (a byte). -/
abbrev MessageType := UInt8

def BatchType : MessageType := 0          -- types.go:98
def SubBatchHeaderType : MessageType := 1 -- types.go:99
def SubBatchMsgType : MessageType := 2    -- types.go:100
def BatchMsgType : MessageType := 3       -- types.go:101
def BatchDeleteMsgType : MessageType := 4 -- types.go:102
def ReorgType : MessageType := 5          -- types.go:103
def ReorgCompleteType : MessageType := 6  -- types.go:104
def PingType : MessageType := 0xff        -- types.go:105

/-- `MessageType.GetKey`, `delivery/types.go:108-114`. -/
def getKey (mt : MessageType) (components : List Bytes) : Bytes :=
  components.foldl (fun result component => result ++ component) [mt]

/-- `delivery.Message`, `delivery/types.go:123-126`, `delivery/producer.go:48-54`. -/
structure Msg where
  key : Bytes
  value : Bytes := []
deriving DecidableEq

/-- `delivery.ResumptionMessage`, `delivery/types.go:128-133`. The timestamp only feeds metrics and is
left out. -/
structure RMsg where
  key : Bytes
  value : Bytes
  offset : Int
  source : GoStr
deriving DecidableEq

/-- The errors of `delivery/errors.go:7-13` plus decoding errors of the Avro library, regular expression
compile errors and transport errors. -/
inductive Err where
  | prefixMissing | prefixOverlap | unknownBatch | invalidBatch | prefixConflict
  | decode | regexp | other (n : Nat)
deriving DecidableEq, Repr

/-- The Avro (de)serialisation used by `EncodeAvro`, `AvroInt` and `avro.Unmarshal`
(`delivery/types.go:30-35,50-55,58-92,116-121`). Avro is an external library: what decoding does
on byte strings that are not encodings is left completely open. -/
structure Codec where
  encInt : Int → Bytes
  decInt : Bytes → Option Int
  encBatch : Batch → Bytes
  decBatch : Bytes → Option Batch
  encSub : SubBatchRecord → Bytes
  decSub : Bytes → Option SubBatchRecord

/-- Signed 32 bit range (Avro `int`). -/
def InInt32 (i : Int) : Prop := -2147483648 ≤ i ∧ i < 2147483648

/-- Signed 64 bit range (Avro `long`, Go `int64`). -/
def InInt64 (i : Int) : Prop := -9223372036854775808 ≤ i ∧ i < 9223372036854775808

instance (i : Int) : Decidable (InInt32 i) := inferInstanceAs (Decidable (_ ∧ _))
instance (i : Int) : Decidable (InInt64 i) := inferInstanceAs (Decidable (_ ∧ _))

/-- A Go `len` is always below 2^63. -/
def LenOK {α : Type} (l : List α) : Prop := l.length < 9223372036854775808

instance {α : Type} (l : List α) : Decidable (LenOK l) := inferInstanceAs (Decidable (_ < _))

/-- Header values the wire format can carry. -/
def Batch.InRange (b : Batch) : Prop :=
  InInt64 b.number ∧ LenOK b.weight ∧ LenOK b.updates.entries ∧
  ∀ e ∈ b.updates.entries, LenOK e.1 ∧ LenOK e.2.value ∧ InInt32 e.2.count

/-- Sub-batch records the wire format can carry. -/
def SubBatchRecord.InRange (r : SubBatchRecord) : Prop :=
  LenOK r.delete ∧ (∀ d ∈ r.delete, LenOK d) ∧ LenOK r.updates.entries ∧
  ∀ e ∈ r.updates.entries, LenOK e.1 ∧ LenOK e.2

/-- All that the other theorems assume about Avro. Proved for the concrete codec in `Props/Wire.lean`. -/
structure Codec.Lawful (C : Codec) : Prop where
  int : ∀ i, InInt32 i → C.decInt (C.encInt i) = some i
  batch : ∀ b : Batch, b.InRange → C.decBatch (C.encBatch b) = some b
  sub : ∀ r : SubBatchRecord, r.InRange → C.decSub (C.encSub r) = some r

end Verif
