import Verif.Spec.Block
import Verif.Model.Consumer
/-! Which messages complete a block: the vocabulary of C147. -/
namespace Verif.Spec

/-- A consumer with this filter waits for the message with this key: the header of the block, an update or delete sent under an accepted prefix, or
a message of a sub-batch under an accepted path. -/
def Matters (tracked : GoStr → Bool) (schema : List RegexpPair) (a : BlockArgs) (key : Bytes) : Prop :=
  key.head? = some BatchType ∨
  ((key.head? = some BatchMsgType ∨ key.head? = some BatchDeleteMsgType) ∧
    ∃ pre topic, Routes schema (key.drop 33) pre topic ∧ tracked pre = true) ∨
  ((key.head? = some SubBatchHeaderType ∨ key.head? = some SubBatchMsgType) ∧
    ∃ path id, a.batches.get? path = some id ∧ (key.drop 33).take 32 = id.bytes ∧ tracked path = true)

/-- Of the messages `ms` of the block all that the consumer waits for have been received. -/
def AllThere (tracked : GoStr → Bool) (schema : List RegexpPair) (a : BlockArgs) (ms : List Msg) (received : List RMsg) : Prop :=
  ∀ x ∈ ms, Matters tracked schema a x.key → ∃ m ∈ received, m.key = x.key

end Verif.Spec
