import Verif.Proofs.Latest
import Verif.Props.Block
import Verif.Props.Kafka
/-! # C81: resumption of sources that carried nothing of the block; C09 for a Kafka consumer restarted from the text -/
namespace Verif
open Spec

/-- **C81**: `Resumption()` of an emitted block restarts every source from which no message of the block was recorded at its latest message
at the time a header of the block was received, and leaves out the sources not heard of at that time. -/
theorem C81_latest {C : Codec} {env : Env} {cfg : Config} {mp mp' : MP} {received : List RMsg} (hn : newMP cfg = .ok mp)
    (hr : mp.run C env received = .ok mp') {pb : PB} (hpb : pb ∈ mp'.emitted) :
    ∃ pre m post, received = pre ++ m :: post ∧ m.key.head? = some 0 ∧ blockOf m.key = pb.hash ∧
      ∀ s, pb.resumption.get? s = none → Latest (pre ++ [m]) s (resumeAt pb s) := by
  have h := latest_run (pre := []) (Base.newMP hn) (LiftInv.newMP hn (by intro s x hx; simp at hx)) hr
  obtain ⟨es, he, hes⟩ := h.emitted
  rw [List.nil_append] at he
  obtain ⟨⟨pre, m, post, e, h1, h2, h3⟩, _⟩ := hes pb (he ▸ hpb)
  rw [List.nil_append] at e
  refine ⟨pre, m, post, e, head_of_headD (run_ok_len hr m (by rw [e]; simp)) h1, h2, ?_⟩
  intro s hs
  unfold resumeAt
  rw [hs]
  exact h3 s

/-- C81: source `q:0` carries two messages of another block; after the whole block from `s:0` it is resumed at the second one. -/
example : ∃ mp', MP.run Avro.codec exEnv exMP
      ([at_ ⟨keyOf Avro.codec (.update (exHash 3) (str "p/x")), [1]⟩ 4 (str "q:0"), at_ ⟨keyOf Avro.codec (.update (exHash 3) (str "p/y")), [1]⟩ 7 (str "q:0")]
        ++ exStream) = .ok mp' ∧
    ((mp'.emitted.map (fun pb => (pb.resumption.get? (str "q:0"), resumeAt pb (str "q:0"), resumeAt pb (str "r:0")))) ==
      [(none, some 7, none)]) = true :=
  ex_ok _ (by decide +kernel)

/-- **C09** for a Kafka consumer: the resumption text of an emitted block is given to a new consumer, which reads every partition from where
`KafkaConsumer.Start` starts it. If it is fed, in whatever order, all messages the first consumer received at or after these positions, it
emits the block again, with the same content. -/
theorem C09_kafka_restart {C : Codec} (hC : C.Lawful) {env env' : Env} {schema : List RegexpPair} {a : BlockArgs}
    {subs : Hash → SubArgs} {ms : List Msg} (hp : Produced C schema a subs ms) (hw : WellFormed schema a subs)
    {cfg cfg' : Config} (ht : cfg.tracked = cfg'.tracked) {mp mp' mq mq' : MP} {r r' : List RMsg}
    (hn : newMP cfg = .ok mp) (hf : Faithful a.hash ms r) (hr : mp.run C env r = .ok mp')
    {pb : PB} (hpb : pb ∈ mp'.emitted) (hh : pb.hash = a.hash)
    (hn' : newMP cfg' = .ok mq) (hk' : Keeps env' a.number) (hf' : Faithful a.hash ms r')
    (hwr : Writable pb) {o : MapOrder} {off : GMap GoStr Int} (hoff : parseResumption (pb.resumptionString o) = .ok off)
    {B : Broker} {rollback : Int} (hb : 0 ≤ rollback) {start : Hash} (hst : start ≠ Hash.zero)
    (hres : ∀ m ∈ r, ∃ topic part s, m.source = sourceOf topic part ∧
      KC.start B { resumption := off, rollback := rollback, startHash := start } topic part = .ok s ∧
      (s = OffsetOldest ∨ s ≤ m.offset → m ∈ r'))
    (hr' : mq.run C env' r' = .ok mq') :
    ∃ pb' ∈ mq'.emitted, SameContent pb pb' := by
  refine C09_resume hC hp hw ht hn hf hr hpb hh hn' hk' hf' ?_ hr'
  rintro m hm ⟨v, hv, hle⟩
  obtain ⟨topic, part, s, hsrc, hs, hin⟩ := hres m hm
  obtain ⟨off', h1, h2⟩ := C47_resume (o := o) B hwr hb hst
  rw [hoff] at h1
  cases h1
  rcases h2 topic part v s (by rw [← hsrc]; exact hv) hs with h | h
  · exact hin (.inl h)
  · exact hin (.inr (by omega))

/-- C09: the stream of the example block, emitted, written, parsed; partition 0 of topic `s` is started at its first message. -/
example : ∃ mp', MP.run Avro.codec exEnv exMP exStream = .ok mp' ∧
    ((mp'.emitted.map (fun pb => (decide (∀ e ∈ pb.resumption.entries ++ pb.resumptionDefaults.entries, CleanName e.1 ∧ InInt64 e.2),
      (match parseResumption (pb.resumptionString .rev) with
        | .ok off => (match KC.start ⟨fun _ _ _ => some 20, fun _ _ x => 0 ≤ x, fun _ => some [0]⟩ { resumption := off, rollback := 0, startHash := exHash 1 } (str "s") 0 with
          | .ok s => some s
          | .error _ => none)
        | .error _ => none), sourceOf (str "s") 0 == str "s:0"))) == [(true, some 0, true)]) = true :=
  ex_ok _ (by decide +kernel)

end Verif
