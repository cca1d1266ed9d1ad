import Verif.Model.Types
/-! What a message key means, independently of how it is laid out. -/
namespace Verif.Spec

/-- The messages of the protocol, by their identity (comments of `delivery/types.go:98-104`). -/
inductive MsgId where
  | batch (block : Hash)
  | subHeader (block batchid : Hash)
  | subMsg (block batchid : Hash) (index : Int)
  | update (block : Hash) (path : GoStr)
  | delete (block : Hash) (path : GoStr)
  | reorg (ancestor : Hash)
  | reorgDone (ancestor : Hash)
deriving DecidableEq

/-- The block (or ancestor) a message belongs to. -/
def MsgId.block : MsgId → Hash
  | .batch b | .subHeader b _ | .subMsg b _ _ | .update b _ | .delete b _ | .reorg b | .reorgDone b => b

/-- Sub-batch indices must fit the wire's 32-bit integer. -/
def MsgId.InRange : MsgId → Prop
  | .subMsg _ _ i => InInt32 i
  | _ => True

/-- The wire type byte. -/
def MsgId.type : MsgId → UInt8
  | .batch _ => 0 | .subHeader .. => 1 | .subMsg .. => 2 | .update .. => 3 | .delete .. => 4
  | .reorg _ => 5 | .reorgDone _ => 6

end Verif.Spec
