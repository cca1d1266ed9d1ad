import Verif.Model.System
import Verif.Model.Websocket
/-!
# A running websocket consumer

The goroutine of `transports/websockets.go:325-469` reads items and calls `ProcessCompleteBatch`; the goroutine of the ordering
layer (`Sys`) takes the blocks from the channel.

`HandleReorg` is called by the reading goroutine itself (`transports/websockets.go:408`) while the other one may be at work on the same
fields: a data race in Go. Here the call is one step.
-/
namespace Verif

/-- The block given to `ProcessCompleteBatch`, built at `transports/websockets.go:410-417`: all other fields are nil, and so is the channel.
`Weight` is non-negative (see `TBatch.json`). -/
def WsBlock.pb (b : WsBlock) : PB where
  number := b.number
  weight := b.weight.toNat
  parentHash := b.parentHash
  hash := b.hash
  values := b.values
  deletes := b.deletes
  resumption := GMap.empty
  resumptionDefaults := GMap.empty
  prefixes := GMap.empty
  batches := GMap.empty
  pendingBatches := GMap.empty
  pendingMessages := GMap.empty
  waitCh := none
  frp := false

/-- The blocks among the calls made on the ordering layer. -/
def handed (l : List WOut) : List PB := l.filterMap fun
  | .block b => some b.pb
  | .reorg .. => none

/-- `conn`: the state of the reading goroutine; `todo`: the items still to be read on this connection before it breaks; `later`: the items that will be
read on the following connections. -/
structure WSys where
  conn : WConn
  todo : List WMsg
  later : List (List WMsg)
  sys : Sys

/-- One step of one of the goroutines. -/
inductive WSys.Step (C : Codec) (env : Env) (o : MapOrder) : WSys → WSys → Prop
  /-- the next item is read, `transports/websockets.go:380-467`; if it completes a block, that is a call of `ProcessCompleteBatch` (`:441`, `:462`) -/
  | read {w : WSys} {m : WMsg} {ms : List WMsg} {mo : MapOrder} {d : WConn} : w.sys.todo = [] → w.sys.out = [] → w.todo = m :: ms →
      (∀ n h, m ≠ .reorg n h) → w.conn.step mo m = .ok d →
      Step C env o w { w with conn := d, todo := ms, sys := { w.sys with todo := (handed (d.out.drop w.conn.out.length)).map Call.block } }
  /-- an item of type `reorg`, `transports/websockets.go:407-408` -/
  | reorg {w : WSys} {n : Nat} {h : Hash} {ms : List WMsg} {mo : MapOrder} {d : WConn} {omp : OMP} : w.sys.todo = [] → w.sys.out = [] →
      w.todo = .reorg n h :: ms → w.conn.step mo (.reorg n h) = .ok d → w.sys.omp.op o (.reorg (ofUint64 n) h) = .ok omp →
      Step C env o w { w with conn := d, todo := ms, sys := { w.sys with omp := omp, ops := w.sys.ops ++ [.reorg (ofUint64 n) h] } }
  /-- the connection breaks and another one is made, `transports/websockets.go:326-344,381-385` -/
  | reconnect {w : WSys} {ms : List WMsg} {later : List (List WMsg)} : w.sys.todo = [] → w.sys.out = [] → w.todo = [] → w.later = ms :: later →
      Step C env o w { w with conn := w.conn.reconnect, todo := ms, later := later }
  /-- `ProcessCompleteBatch` and the ordering layer, `delivery/consumer.go:254-268`, `delivery/ordering.go:66-100` -/
  | inner {w : WSys} {s : Sys} : Sys.Step C env o w.sys s → Step C env o w { w with sys := s }

/-- Any number of steps. -/
inductive WSys.Steps (C : Codec) (env : Env) (o : MapOrder) (w : WSys) : WSys → Prop
  | refl : Steps C env o w w
  | step {w1 w2 : WSys} : Steps C env o w w1 → WSys.Step C env o w1 w2 → Steps C env o w w2

/-- The state after `newWebsocketConsumer` and `Start`, connected for the first time, `transports/websockets.go:313-344`. -/
def WSys.start (cfg : Config) (lastNum : Int) (first : List WMsg) (later : List (List WMsg)) : Except Fault WSys := do
  let s ← Sys.start cfg []
  .ok { conn := WConn.new lastNum cfg.lastHash, todo := first, later := later, sys := s }

/-- The same consumer in an open world: when the connection breaks, the next one brings items that answer what the consumer asks for
(`cardinal_subscribe` with `lastNum` and `lastHash`, `transports/websockets.go:337-345`). -/
inductive WSys.Served (serve : Nat × Hash → List WMsg → Prop) (C : Codec) (env : Env) (o : MapOrder) : WSys → WSys → Prop
  | step {w w' : WSys} : WSys.Step C env o w w' → Served serve C env o w w'
  | connect {w : WSys} {ms : List WMsg} : w.sys.todo = [] → w.sys.out = [] → w.todo = [] → serve w.conn.request ms →
      Served serve C env o w { w with conn := w.conn.reconnect, todo := ms }

/-- Any number of such steps. -/
inductive WSys.ServedSteps (serve : Nat × Hash → List WMsg → Prop) (C : Codec) (env : Env) (o : MapOrder) (w : WSys) : WSys → Prop
  | refl : ServedSteps serve C env o w w
  | step {w1 w2 : WSys} : ServedSteps serve C env o w w1 → WSys.Served serve C env o w1 w2 → ServedSteps serve C env o w w2

/-- A goroutine is about to fault. -/
def WSys.Faulting (C : Codec) (env : Env) (o : MapOrder) (w : WSys) : Prop :=
  (∃ m ms mo f, w.sys.todo = [] ∧ w.sys.out = [] ∧ w.todo = m :: ms ∧ w.conn.step mo m = .error f) ∨
  (∃ c cs f, w.sys.todo = c :: cs ∧ w.sys.mp.call C env c = .error f) ∨
  ∃ pb rest f, w.sys.ch = pb :: rest ∧ w.sys.omp.handle o pb = .error f

/-- An item encoded by the producer and decoded by the consumer (`TBatch.json`, `TSub.json`). -/
def WMsg.json (o : MapOrder) : WMsg → WMsg
  | .batch b => .batch (b.json o)
  | .sub s => .sub (s.json o)
  | m => m

end Verif
