import Verif.Model.WebsocketLife
import Verif.Model.WebsocketSystem
/-!
# A websocket consumer with its connections

The goroutine made by `Start` (`transports/websockets.go:325-469`) with its connections, dialling and reconnecting (`LWs`), with what the items do to the
blocks (`WConn`), and the goroutine of the ordering layer (`Sys`). `LWs` says where the goroutine is and which item it handles, `WConn` and `Sys` what it
does with it. An item of a block that is complete makes the goroutine call `ProcessCompleteBatch`; it goes on when the call has returned.
-/
namespace Verif

/-- `life`: the goroutine and the connections; `conn`: its maps and the position it would ask for; `sys`: the calls made and the ordering layer. `req k`: what was asked for on
connection `k` (`transports/websockets.go:337-344`); `came k`: all that has arrived on it. No step looks at `req` and `came`. -/
structure WWhole where
  life : LWs
  conn : WConn
  sys : Sys
  req : Nat → Nat × Hash
  came : Nat → List LFrame

/-- The reading goroutine is not inside `ProcessCompleteBatch`. -/
def WWhole.free (w : WWhole) : Prop := w.sys.todo = [] ∧ w.sys.out = []

/-- A step of the consumer itself: its reading goroutine or the ordering layer. -/
inductive WWhole.Own (C : Codec) (env : Env) (o : MapOrder) : WWhole → WWhole → Prop
  /-- a step of the reading goroutine that makes no connection and handles no item, `transports/websockets.go:326-467` -/
  | quiet {w : WWhole} {t : LWs} : w.free → LWs.Go w.life t → t.made = w.life.made → t.got = w.life.got → Own C env o w { w with life := t }
  /-- a connection is made: new maps, and the request, `transports/websockets.go:334-344` -/
  | dial {w : WWhole} {t : LWs} : w.free → LWs.Go w.life t → t.made = w.life.made + 1 →
      Own C env o w { w with life := t, conn := w.conn.reconnect, req := fun k => if k = w.life.made then w.conn.request else w.req k }
  /-- an item is handled, `transports/websockets.go:399-466` -/
  | item {w : WWhole} {t : LWs} {m : WMsg} {mo : MapOrder} {d : WConn} : w.free → LWs.Go w.life t → t.got = w.life.got ++ [m] →
      (∀ n h, m ≠ .reorg n h) → w.conn.step mo m = .ok d →
      Own C env o w { w with life := t, conn := d, sys := { w.sys with todo := (handed (d.out.drop w.conn.out.length)).map Call.block } }
  /-- an item of type `reorg` is handled, `transports/websockets.go:407-408` -/
  | reorg {w : WWhole} {t : LWs} {n : Nat} {h : Hash} {mo : MapOrder} {d : WConn} {omp : OMP} : w.free → LWs.Go w.life t →
      t.got = w.life.got ++ [.reorg n h] → w.conn.step mo (.reorg n h) = .ok d → w.sys.omp.op o (.reorg (ofUint64 n) h) = .ok omp →
      Own C env o w { w with life := t, conn := d, sys := { w.sys with omp := omp, ops := w.sys.ops ++ [.reorg (ofUint64 n) h] } }
  /-- `ProcessCompleteBatch` and the ordering layer, `delivery/consumer.go:254-268`, `delivery/ordering.go:66-100` -/
  | inner {w : WWhole} {s : Sys} : Sys.Step C env o w.sys s → Own C env o w { w with sys := s }

/-- A step of the consumer, of the network, or of the goroutines that call `Start` and `Close`. -/
inductive WWhole.Step (C : Codec) (env : Env) (o : MapOrder) : WWhole → WWhole → Prop
  | own {w w' : WWhole} : WWhole.Own C env o w w' → Step C env o w w'
  /-- a message arrives -/
  | arrive {w : WWhole} {k : Nat} {f : LFrame} : k < w.life.made → (w.life.conn k).up = true →
      Step C env o w { w with life := w.life.upd k { w.life.conn k with buf := (w.life.conn k).buf ++ [f] },
                              came := fun j => if j = k then w.came k ++ [f] else w.came j }
  /-- a connection breaks, or `Start` returns -/
  | world {w : WWhole} {t : LWs} : LWs.World w.life t → (∀ k, (t.conn k).buf = (w.life.conn k).buf) → Step C env o w { w with life := t }
  /-- `Close` -/
  | shut {w : WWhole} {t : LWs} : LWs.Shut w.life t → Step C env o w { w with life := t }

/-- Any number of steps. -/
inductive WWhole.Steps (C : Codec) (env : Env) (o : MapOrder) (w : WWhole) : WWhole → Prop
  | refl : Steps C env o w w
  | step {w1 w2 : WWhole} : Steps C env o w w1 → WWhole.Step C env o w1 w2 → Steps C env o w w2

/-- After `newWebsocketConsumer`, when `Start` has made its goroutine, `transports/websockets.go:313-325`. -/
def WWhole.start (cfg : Config) (lastNum : Int) : Except Fault WWhole := do
  let s ← Sys.start cfg []
  .ok { life := LWs.init, conn := WConn.new lastNum cfg.lastHash, sys := s, req := fun _ => (0, Hash.zero), came := fun _ => [] }

/-- A goroutine is about to fault: the reading goroutine on an item or on the nil pointer `subid`, or one of those below. -/
def WWhole.Faulting (C : Codec) (env : Env) (o : MapOrder) (w : WWhole) : Prop :=
  (∃ t m mo f, w.free ∧ LWs.Go w.life t ∧ t.got = w.life.got ++ [m] ∧ w.conn.step mo m = .error f) ∨
  (∃ t, LWs.Go w.life t ∧ t.place = .crashed) ∨
  (∃ c cs f, w.sys.todo = c :: cs ∧ w.sys.mp.call C env c = .error f) ∨
  ∃ pb rest f, w.sys.ch = pb :: rest ∧ w.sys.omp.handle o pb = .error f

end Verif
