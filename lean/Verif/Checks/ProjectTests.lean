import Verif.Model.Avro
import Verif.Model.System
import Verif.Model.Websocket
import Verif.Model.JsonText
import Verif.Model.Waiter
/-!
# The project's own tests, run on the model

The cases of `delivery/ordering_test.go`, `delivery/consumer_test.go`, `delivery/producer_test.go`, `delivery/types_test.go`, `transports/websockets_test.go` and
`waiter/waiter_test.go`, with the outcomes these files ask for, evaluated by the interpreter (`#guard`). These are tests of the model, that it behaves as the
code does where the project says how it behaves; no theorem rests on them.

Where a Go test depends on the order of a map or on `rand.Shuffle`, several orders are tried.
-/
namespace Verif.ProjectTests
open Verif

/-- Orders to try: as inserted, reversed, and rotated differently at every iteration. -/
def rotated (seed : Nat) : MapOrder where
  ord n l := l.drop ((n * 7 + seed) % (l.length + 1)) ++ l.take ((n * 7 + seed) % (l.length + 1))
  perm n l := by
    refine List.perm_append_comm.trans ?_
    rw [List.take_append_drop]

def orders : List MapOrder := [.plain, .rev, rotated 1, rotated 2, rotated 3, rotated 5]

/-- A shuffle, as different as possible for different seeds: elements sorted by a pseudo-random key. -/
def shuffle {α : Type} (seed : Nat) (l : List α) : List α :=
  let keyed := (l.zipIdx).map (fun e => ((e.2 * 7919 + seed * 104729 + e.2 * e.2 * 31 * (seed + 1)) % 10007, e.1))
  (keyed.mergeSort (fun x y => decide (x.1 ≤ y.1))).map Prod.snd

def seeds : List Nat := (List.range 40)

/-- `regexp` for the expressions of the tests: a literal prefix. -/
def lit (s : String) : GoStr → GoStr := fun k => if hasPrefix k (str s) then str s else []

/-- `^bar/[^/]+/baz/`. -/
def barBaz : GoStr → GoStr := fun k =>
  if hasPrefix k (str "bar/") then
    let r := k.drop 4
    let a := r.takeWhile (· != 47)
    if a ≠ [] ∧ hasPrefix (r.drop a.length) (str "/baz/") then str "bar/" ++ a ++ str "/baz/" else []
  else []

/-- `regexp.Compile` for these expressions, with and without the `^` that `NewProducer` puts in front. -/
def compile (e : GoStr) : Option (GoStr → GoStr) :=
  let e := if hasPrefix e [94] then e.drop 1 else e
  if e = str "bar/[^/]+/baz/" then some barBaz else some (fun k => if hasPrefix k e then e else [])

/-- `NewProducer("default", map[string]string{…})` of the tests; the third expression is `state/` or `state/thing`. -/
def producer (o : MapOrder) (state : String) : Option Producer :=
  (newProducer o compile (str "default") (GMap.ofList [(str "foo/", str "foo"), (str "bar/[^/]+/baz/", str "bar"), (str state, str "state")])).toOption

/-- `toTestResumptionMessage`, `delivery/consumer_test.go:26-39`. -/
def numbered (o : MapOrder) (maps : List (GMap GoStr (List Msg))) : List RMsg :=
  let all := maps.flatMap (fun m => (o.ord 0 m.entries).flatMap (fun e => e.2.map (fun x => (e.1, x))))
  (all.foldl (fun (acc : List RMsg × GMap GoStr Int) e =>
    let n := (acc.2.get? e.1).getD 0
    (acc.1 ++ [⟨e.2.key, e.2.value, n, e.1⟩], acc.2.insert e.1 (n + 1))) ([], GMap.empty)).1

def text (n : Int) : GoStr := intDigits n

/-- `testUpdate`, `delivery/ordering_test.go:29-37`. -/
structure Upd where
  number : Int
  nonce : Int
  hash : Hash
  parentHash : Hash
  weight : Int

/-- `getTestBlock`, `delivery/ordering_test.go:59-84`. -/
def getTestBlock (blockNo nonce : Int) (parent : Option Upd) : Upd :=
  { number := blockNo, nonce := nonce, hash := bytesToHash (text nonce ++ text blockNo),
    parentHash := match parent with | some p => p.hash | none => Hash.zero,
    weight := match parent with | some p => p.weight + 1 | none => 0 }

def Upd.batchId (u : Upd) : Hash := bytesToHash (str "batch" ++ text u.number ++ text u.nonce)

/-- `testUpdate.Messages`, `delivery/ordering_test.go:47-57`; `none` is `t.Fatalf`. -/
def Upd.messages (o : MapOrder) (p : Producer) (u : Upd) : Option (Producer × List RMsg) :=
  match addBlock Avro.codec o p u.number u.hash u.parentHash u.weight (GMap.ofList [(str "foo/" ++ text u.number ++ str "/item", text u.nonce)])
      (GMap.ofList [(str "foo/" ++ text u.number ++ str "/gone", ())]) (GMap.ofList [(str "state/", u.batchId)]) with
  | (_, .error _) => none
  | (p, .ok m) =>
    match sendBatch Avro.codec o p u.batchId [str "state/" ++ text u.nonce ++ str "/whatever"]
        (GMap.ofList [(str "state/" ++ text u.number ++ str "/addition", text u.nonce)]) with
    | (_, .error _) => none
    | (p, .ok m') => some (p, numbered o [m] ++ numbered o [m'])

/-- `assembleMessages`, `delivery/ordering_test.go:226-232`. -/
def assemble (o : MapOrder) (p : Producer) : List Upd → Option (List RMsg)
  | [] => some []
  | u :: us =>
    match u.messages o p with
    | none => none
    | some (p, ms) => (assemble o p us).map (ms ++ ·)

/-- `NewOrderedMessageProcessor` of the tests; the expression `.` matches every key that is not empty. -/
def cfg (last : Upd) : Config :=
  ⟨last.number, last.hash, last.weight.toNat, 128, fun k => !k.isEmpty, GMap.empty, false⟩

/-- All messages into a `MessageProcessor`; `none` if it panics or returns an error (`t.Errorf`). -/
def feed (env : Env) : MP → List RMsg → Option MP
  | mp, [] => some mp
  | mp, m :: ms =>
    match mp.processMessage Avro.codec env m with
    | .ok (mp, none) => feed env mp ms
    | _ => none

/-- `reorgTester`, `delivery/ordering_test.go:162-224`: the updates, as hashes. -/
def outputs (o : MapOrder) (messages : List RMsg) (last : Upd) : Option (List (List Hash × List Hash)) :=
  match newMP (cfg last), newOMP (cfg last) with
  | .ok mp, .ok omp =>
    match feed ⟨o, fun _ => []⟩ mp messages with
    | none => none
    | some mp =>
      match omp.run o (mp.emitted.map OOp.block) with
      | .error _ => none
      | .ok omp => some (omp.updates.map (fun u => (u.1.map PB.hash, u.2.map PB.hash)))
  | _, _ => none

def reorgTest (updates : List Upd) (expected : List (List Upd × List Upd)) (last : Upd) : Bool :=
  orders.all (fun o => match producer o "state/" with
    | none => false
    | some p => match assemble o p updates with
      | none => false
      | some ms => outputs o ms last == some (expected.map (fun e => (e.1.map Upd.hash, e.2.map Upd.hash))))

def a := getTestBlock 0 0 none
def b := getTestBlock 1 0 a
def c := getTestBlock 1 1 a
def d := getTestBlock 2 1 c
def e := getTestBlock 2 0 b
def f := getTestBlock 3 0 e
def g := getTestBlock 2 2 b
def h := getTestBlock 3 1 g
def i := getTestBlock 4 0 h
def j := getTestBlock 4 1 f
def k := getTestBlock 5 0 i

/-- `chain1` and `chain2`, `delivery/ordering_test.go:247-252`. -/
def chain (nonce : Int) : Nat → List Upd
  | 0 => [a]
  | n + 1 => chain nonce n ++ [getTestBlock (n + 1 : Nat) nonce ((chain nonce n).getLast?)]
def chain1 := chain 1 60
def chain2 := chain 2 60

/-! ## `delivery/ordering_test.go` -/

/-- `TestOrdering`, `:86-149`. -/
def testOrdering : Bool :=
  orders.all (fun o => seeds.all (fun s => match producer o "state/" with
    | none => false
    | some p => match assemble o p [b, getTestBlock 2 0 (some b)] with
      | none => false
      | some ms => match outputs o (shuffle s ms) a with
        | none => false
        | some us => (us.flatMap Prod.fst).length == 2 && (us.flatMap Prod.snd).length == 0))

#guard testOrdering
#guard reorgTest [a, b, c, d] [([b], []), ([c, d], [b])] a
#guard reorgTest [a, b, d, c] [([b], []), ([c, d], [b])] a
#guard reorgTest [a, c, d, b] [([c], []), ([d], [])] a
#guard reorgTest [a, b, c, d, e, f] [([b], []), ([c, d], [b]), ([b, e, f], [c, d])] a
#guard reorgTest [a, e, g, f, b, h, i] [([b, e, f], []), ([g, h, i], [e, f])] a
#guard reorgTest [a, e, g, f, h, i, b] [([b, g, h, i], [])] a
#guard reorgTest [a, e, f, h, i, g, b] [([b, g, h, i], [])] a
#guard reorgTest [a, b, e, f, j, h, i, k, g] [([b], []), ([e], []), ([f], []), ([j], []), ([g, h, i, k], [e, f, j])] a
#guard reorgTest [a, b, e, f, j, g, i, k, h] [([b], []), ([e], []), ([f], []), ([j], []), ([g, h, i, k], [e, f, j])] a
#guard reorgTest [a, b, e, f, j, g, h, i, k] [([b], []), ([e], []), ([f], []), ([j], []), ([g, h, i, k], [e, f, j])] a
#guard reorgTest [a, b, e, f, j, i, k, h, g] [([b], []), ([e], []), ([f], []), ([j], []), ([g, h, i, k], [e, f, j])] a
#guard reorgTest [a, b, e, f, j, g, h, k, i] [([b], []), ([e], []), ([f], []), ([j], []), ([g, h, i, k], [e, f, j])] a
#guard reorgTest [a, d, c] [([c, d], [])] a
#guard reorgTest [a, c, d, b, e, f] [([d], []), ([b, e, f], [c, d])] c

/-- The elements with index from `lo` and below `hi`: `l[lo:hi]`. -/
def slice (l : List Upd) (lo hi : Nat) : List Upd := (l.take hi).drop lo

#guard reorgTest (chain1.take 50 ++ chain2.take 25 ++ slice chain2 30 53 ++ [25, 26, 27, 28, 53, 29].filterMap (chain2[·]?))
  ((slice chain1 1 50).map (fun x => ([x], [])) ++ [(slice chain2 1 54, slice chain1 1 50)]) a
#guard reorgTest (chain1.take 6 ++ [5, 6, 3, 4, 1, 2].filterMap (chain2[·]?))
  ((slice chain1 1 6).map (fun x => ([x], [])) ++ [(slice chain2 1 7, slice chain1 1 6)]) a
#guard reorgTest (chain1.take 7 ++ chain2.take 8) [(slice chain2 1 8, slice chain1 1 7)] ((chain1[6]?).getD a)
#guard reorgTest (chain1.take 6 ++ chain2.take 8 ++ [chain1[6]?, chain2[8]?].filterMap id) [(slice chain2 1 9, slice chain1 1 7)] ((chain1[6]?).getD a)

/-! ## `delivery/producer_test.go` -/

def hash1 (x : UInt8) : Hash := bytesToHash [x]

def someUpdates : GMap GoStr Bytes :=
  GMap.ofList [(str "foo/something", str "gnihtemos/oof"), (str "bar/whatever/baz/stuff", str "data"), (str "default/thing", str "defaulttopic")]
def someDeletes : GMap GoStr Unit := GMap.ofList [(str "foo/delete", ()), (str "bar/delete/baz/thing", ()), (str "default/delete", ())]

/-- The block of `:22-41` and of `delivery/consumer_test.go:53-71`. -/
def someBlock (o : MapOrder) (p : Producer) : Producer × Except Err (GMap GoStr (List Msg)) :=
  addBlock Avro.codec o p 0 (hash1 1) (hash1 0) 0 someUpdates someDeletes (GMap.ofList [(str "state/", hash1 0xff)])

/-- The sub-batch of `:59` and of `delivery/consumer_test.go:86`. -/
def someBatch (o : MapOrder) (p : Producer) : Producer × Except Err (GMap GoStr (List Msg)) :=
  sendBatch Avro.codec o p (hash1 0xff) [str "whatever/", str "other/"] (GMap.ofList [(str "state/thing", str "thing!")])

/-- `TestProducer`, `:13-70`. -/
def testProducer : Bool :=
  orders.all (fun o => match producer o "state/" with
    | none => false
    | some p => match someBlock o p with
      | (p, .ok m) =>
        (m.get? (str "foo")).map List.length == some 2 && (m.get? (str "bar")).map List.length == some 2 &&
        (match m.get? (str "default") with
          | some [x] => (match Avro.codec.decBatch x.value with
            | some b => b.number == 0 && b.weight == [] && b.parentHash == hash1 0 && b.updates.size == 6
            | none => false)
          | _ => false) &&
        (match someBatch o p with
          | (_, .ok m) => m.size == 1 && (match m.get? (str "state") with
            | some (x :: l) => l.length == 2 && x.key == getKey SubBatchHeaderType [(hash1 1).bytes, (hash1 0xff).bytes]
            | _ => false)
          | _ => false)
      | _ => false)

#guard testProducer

/-! ## `delivery/types_test.go` -/

/-- `TestSerializer`, `:11-38`. -/
def testSerializer : Bool :=
  let b : Batch := { number := 0, weight := [0], parentHash := hash1 1, updates := GMap.ofList [(str "/foo", ⟨str "bar", 0, Hash.zero, false⟩), (str "/baz", ⟨[], 1, Hash.zero, false⟩), (str "/batch", ⟨[], 0, hash1 2, false⟩)] }
  (match Avro.codec.decBatch (Avro.codec.encBatch b) with
    | some nb => nb.number == b.number && nb.weight.length == b.weight.length && nb.parentHash == b.parentHash && nb.updates.size == b.updates.size &&
        (nb.updates.get? (str "/baz")).map BatchRecord.count == some 1
    | none => false) &&
  (match Avro.codec.decSub (Avro.codec.encSub { delete := [str "/foo"], updates := GMap.empty }) with
    | some u => u.delete.head? == some (str "/foo")
    | none => false)

#guard testSerializer

/-! ## `delivery/consumer_test.go` -/

/-- `NewMessageProcessor` of the tests. -/
def cfg' (frp : Bool) : Config := ⟨0, Hash.zero, 0, 128, fun _ => true, GMap.empty, frp⟩

/-- The blocks that arrive on the channel; `none` if there is a panic or an error is returned. -/
def emits (o : MapOrder) (frp : Bool) (ms : List RMsg) : Option (List PB) :=
  match newMP (cfg' frp) with
  | .error _ => none
  | .ok mp => (feed ⟨o, fun _ => []⟩ mp ms).map MP.emitted

/-- `:91-104`. -/
def expectBlock (number : Int) : Option (List PB) → Bool
  | some [v] => v.number == number && v.weight == 0 && v.parentHash == hash1 0 && v.values.size == 4 && v.deletes.size == 5
  | _ => false

/-- `TestConsumer`, `:42-112`. -/
def testConsumer : Bool :=
  orders.all (fun o => match producer o "state/thing" with
    | none => false
    | some p => match someBlock o p with
      | (p, .ok m) => match someBatch o p with
        | (_, .ok m') => (emits o false (numbered o [m])).map List.length == some 0 && expectBlock 0 (emits o false (numbered o [m] ++ numbered o [m']))
        | _ => false
      | _ => false)

#guard testConsumer

/-- `getTestMessages`, `:114-154`. -/
def getTestMessages (o : MapOrder) (blockCount : Nat) : Option (List RMsg) := do
  let p ← producer o "state/thing"
  let r ← (List.range blockCount).foldlM (fun (acc : Producer × List (GMap GoStr (List Msg))) n => do
    let i := n + 1
    let batchid := bytesToHash [255, UInt8.ofNat (i - 1)]
    match addBlock Avro.codec o acc.1 i (hash1 (UInt8.ofNat i)) (hash1 (UInt8.ofNat (i - 1))) 0 someUpdates someDeletes (GMap.ofList [(str "state/", batchid)]) with
    | (_, .error _) => none
    | (p, .ok m) => match sendBatch Avro.codec o p batchid [str "whatever/", str "other/"] (GMap.ofList [(str "state/thing", str "thing!")]) with
      | (_, .error _) => none
      | (p, .ok m') => some (p, acc.2 ++ [m, m'])) (p, [])
  some (numbered o r.2)

/-- `getAlternateTestMessages`, `:155-186`. -/
def getAlternateTestMessages (o : MapOrder) (blockCount : Nat) : Option (List RMsg) := do
  let p ← producer o "state/thing"
  let r ← (List.range blockCount).foldlM (fun (acc : Producer × List (GMap GoStr (List Msg))) n => do
    let i : Nat := n + 1
    match addBlock Avro.codec o acc.1 i (hash1 (UInt8.ofNat i)) (hash1 (UInt8.ofNat (i - 1))) 0 GMap.empty (GMap.ofList [(str "foo/somethingelse", ())]) GMap.empty with
    | (_, .error _) => none
    | (p, .ok m) => some (p, acc.2 ++ [m])) (p, [])
  some (numbered o r.2)

/-- `TestShuffled`, `:188-219`. -/
def testShuffled : Bool :=
  orders.all (fun o => seeds.all (fun s => match getTestMessages o 1 with
    | none => false
    | some ms => expectBlock 1 (emits o false (shuffle s ms))))

#guard testShuffled

/-- The messages of `TestFailedReconstruct…`, `:230-231, 260-261`; which message comes first depends on the order of a map. -/
def inconsistent (o : MapOrder) : Option (List RMsg) := do
  let x ← getAlternateTestMessages o 1
  let y ← getTestMessages o 1
  some (x.drop 1 ++ y)

/-- `TestFailedReconstructNoPanic`, `:220-249`. -/
def testFailedReconstructNoPanic : Bool :=
  orders.all (fun o => match inconsistent o with
    | none => false
    | some ms => match emits o false ms with
      | some [v] => v.number == 1 && v.weight == 0 && v.parentHash == hash1 0
      | _ => false)

#guard testFailedReconstructNoPanic

/-- `TestFailedReconstructPanic`, `:250-270`. The test passes when the header is the first message of the alternate block and fails
otherwise: then the message that would have been one too many for `foo/` arrives after the block has been emitted. So whether the test
passes depends on the order in which Go visits a map with two keys. -/
def testFailedReconstructPanic : Bool :=
  orders.all (fun o => match getAlternateTestMessages o 1, inconsistent o, newMP (cfg' true) with
    | some (x :: _), some ms, .ok mp =>
      let panics := match mp.run Avro.codec ⟨o, fun _ => []⟩ ms with
        | .error .panic => true
        | _ => false
      panics == (x.source == str "default")
    | _, _, _ => false)

#guard testFailedReconstructPanic

/-- `TestShuffledDups`, `:271-305`. -/
def testShuffledDups : Bool :=
  orders.all (fun o => seeds.all (fun s => match getTestMessages o 1 with
    | none => false
    | some ms =>
      let ms := shuffle s ms
      expectBlock 1 (emits o false (shuffle (s + 100) (ms ++ ms.take (ms.length / 4))))))

#guard testShuffledDups

/-- `TestShuffledDupsMultiBlock`, `:306-340`. -/
def testShuffledDupsMultiBlock : Bool :=
  orders.all (fun o => seeds.all (fun s => match getTestMessages o 2 with
    | none => false
    | some ms =>
      let ms := shuffle s ms
      (emits o false (shuffle (s + 100) (ms ++ ms.take (ms.length / 4)))).map List.length == some 2))

#guard testShuffledDupsMultiBlock

/-- `TestConsumerReorg`, `:342-385`. -/
def testConsumerReorg : Bool :=
  orders.all (fun o => match producer o "state/thing" with
    | none => false
    | some p => match someBlock o p, newMP (cfg' false) with
      | (_, .ok m), .ok mp =>
        let r := reorgMsg Avro.codec 0 (hash1 0)
        let d := reorgDoneMsg Avro.codec 0 (hash1 0)
        (feed ⟨o, fun _ => []⟩ mp (numbered o [m] ++ [⟨r.key, r.value, 19, str "reorg"⟩, ⟨d.key, d.value, 20, str "reorg"⟩])).isSome
      | _, _ => false)

#guard testConsumerReorg

/-! ## `transports/websockets_test.go` -/

/-- `TestResultMessageJSON`, `:12-31`, which prints the text and does not look at it. -/
def testResultMessageJSON : Bool :=
  let zero := str "\"0x0000000000000000000000000000000000000000000000000000000000000000\""
  (WMsg.batch ⟨3, 3, Hash.zero, Hash.zero, GMap.empty, [], GMap.empty⟩).text ⟨false, false, false⟩ ==
    some (str "{\"type\":\"batch\",\"batch\":{\"number\":\"0x3\",\"weight\":\"0x3\",\"hash\":" ++ zero ++ str ",\"parent\":" ++ zero ++
      str ",\"values\":{},\"deletes\":[],\"batches\":{}}}")

#guard testResultMessageJSON

/-! ## `waiter/waiter_test.go` -/

/-- `testPendingBatch`, `:16-23`, with the hash as in `TestOrdering`; `foreign` blocks of the waiter are numbered in the order of the list `blocks`. -/
def pending (nonce : Int) (parent : PB) : PB :=
  { parent with number := parent.number + 1, hash := bytesToHash (text nonce ++ text (parent.number + 1)), weight := parent.weight + 1,
                parentHash := parent.hash }

def zpb : PB := ⟨1, 0, Hash.zero, ⟨255 :: List.replicate 31 0, by decide⟩, GMap.empty, GMap.empty, GMap.empty, GMap.empty, GMap.empty, GMap.empty, GMap.empty,
  GMap.empty, none, false⟩
def apb := pending 0 zpb
def bpb := pending 0 apb
def cpb := pending 1 apb
def dpb := pending 0 cpb
def blocks : List PB := [apb, bpb, cpb, dpb]

/-- The waiter takes everything announced, and every goroutine that can goes on, to the end. -/
def settle : Nat → WS → Option WS
  | 0, s => some s
  | n + 1, s =>
    match s.queue with
    | a :: q => settle n (s.take a q)
    | [] =>
      match s.watching.span (fun w => !s.closed.contains w.ann.ch) with
      | (l1, w :: l2) => match ({ s with watching := l1 ++ l2 }).hashFired w with
        | .ok s => settle n s
        | .error _ => none
      | (_, []) =>
        match s.watching.span (fun w => !s.closed.contains w.nch) with
        | (l1, w :: l2) => settle n (({ s with watching := l1 ++ l2 }).numberFired w)
        | (_, []) => some s

/-- `omp.ProcessCompleteBatch` of these blocks, with a subscriber that calls `Done` on every update and a waiter running. -/
def process (o : MapOrder) : OMP × WS → List PB → Option (OMP × WS)
  | s, [] => some s
  | (omp, ws), pb :: pbs =>
    let ws := ws.complete (blocks.findIdx (fun x => x.hash == pb.hash))
    match omp.handle o pb with
    | .error _ => none
    | .ok omp' =>
      let added := (omp'.updates.drop omp.updates.length).flatMap (fun u => u.1)
      match ws.doneAll (added.map (fun pb => blocks.findIdx (fun x => x.hash == pb.hash))) with
      | .error _ => none
      | .ok ws => match settle 100 ws with
        | none => none
        | some ws => process o (omp', ws) pbs

/-- Blocks processed before and after two waiters ask for block `bpb` by hash and by number; are their channels closed in the end? `none`: not found. -/
def waiterTest (o : MapOrder) (before after : List PB) : Option (Bool × Bool) := do
  let omp ← (newOMP ⟨zpb.number, zpb.hash, zpb.weight, 128, fun k => !k.isEmpty, GMap.empty, false⟩).toOption
  let ws := blocks.foldl (fun (s : WS) pb => s.foreign pb.hash pb.number) WS.init
  let s ← process o (omp, ws) before
  let h ← s.2.lookup (.hash bpb.hash)
  let n ← s.2.lookup (.number bpb.number)
  let s ← process o s after
  some (s.2.closed.contains h, s.2.closed.contains n)

/-- `TestWaiterSuccess`, `TestWaiterTimeout` and `TestWaiterReorg`. -/
def testWaiter : Bool :=
  orders.all (fun o =>
    waiterTest o [bpb] [apb] == some (true, true) &&
    waiterTest o [bpb] [] == some (false, false) &&
    waiterTest o [bpb, cpb, dpb] [apb] == some (false, true))

#guard testWaiter

end Verif.ProjectTests
