import Verif.Props.System
/-!
# C137: redundant producers

Several producers publish the same blocks (SPEC.md:6). Their messages are not equal byte for byte: a header is a map, encoded in
any order. The consumer combines them all the same.
-/
namespace Verif
open Spec

/-- The producers of a block: each is given the same block and sends it (`delivery/producer.go:56-131`, `:134-171`). -/
def Spec.Redundant (C : Codec) (schema : List RegexpPair) (a : BlockArgs) (subs : Hash → SubArgs) (ps : List SentBlock) : Prop :=
  ∀ p ∈ ps, SameGiven schema a subs p.schema p.args p.subs ∧ SentBy C p.schema p.args p.subs p.msgs

section
variable {C : Codec} {env : Env} {o : MapOrder} {schema : List RegexpPair} {a : BlockArgs} {subs : Hash → SubArgs} {ps : List SentBlock}

/-- The messages of all of them together are those of one produced block, so everything proved about produced blocks holds of them. -/
theorem C137_union (h : Redundant C schema a subs ps) (hne : ps ≠ []) : Produced C schema a subs (ps.flatMap (·.msgs)) := by
  constructor
  · obtain ⟨p, hp⟩ := List.exists_mem_of_ne_nil _ hne
    obtain ⟨x, hx⟩ := List.exists_mem_of_ne_nil _ (h p hp).2.produced.1
    exact List.ne_nil_of_mem (List.mem_flatMap.mpr ⟨p, hp, hx⟩)
  · intro m hm
    obtain ⟨p, hp, hx⟩ := List.mem_flatMap.mp hm
    exact ⟨p.schema, p.args, p.subs, p.msgs, (h p hp).1, (h p hp).2, hx, fun x hx => List.mem_flatMap.mpr ⟨p, hp, hx⟩⟩

/-- **C137**, keys: whatever one of them sends, each of the others sends a message with the same key. -/
theorem C137_keys (hC : C.Lawful) (hw : WellFormed schema a subs) (h : Redundant C schema a subs ps) {p q : SentBlock} (hp : p ∈ ps) (hq : q ∈ ps) :
    ∀ x ∈ p.msgs, ∃ y ∈ q.msgs, y.key = x.key := by
  intro x hx
  obtain ⟨b, hb⟩ := bridgeSent hC (h p hp).2 ((h p hp).1.wellFormed hw)
  obtain ⟨b', hb'⟩ := bridgeSent hC (h q hq).2 ((h q hq).1.wellFormed hw)
  have hH : HeaderOf schema a b := (h p hp).1.headerOf hb.hdr
  obtain ⟨i, hk, hm⟩ := hb.mine x hx
  have hm := (h p hp).1.mine hH hb.hdr hm
  have : ((blkOf schema a subs b).Part i) ∨ i = .batch a.hash := by
    by_cases ht : i.type = 0
    · generalize x.value = v at hm
      cases hm with
      | header => exact .inr rfl
      | _ => simp [MsgId.type] at ht
    · exact .inl (hm.part ht)
  obtain ⟨y, hy, hyk⟩ := hb'.all i (this.imp ((h q hq).1.part hH hb'.hdr) (fun e => by rw [(h q hq).1.hash]; exact e))
  exact ⟨y, hy, hyk.trans hk.symm⟩

theorem C137_arrive (hC : C.Lawful) (hw : WellFormed schema a subs) (h : Redundant C schema a subs ps) {p : SentBlock} (hp : p ∈ ps)
    {received : List RMsg} (ha : ∀ x ∈ p.msgs, ∃ m ∈ received, m.key = x.key ∧ ∃ q ∈ ps, Copy q.msgs m) : AllArrive (ps.flatMap (·.msgs)) received := by
  intro x hx
  obtain ⟨q, hq, hx⟩ := List.mem_flatMap.mp hx
  obtain ⟨y, hy, hyk⟩ := C137_keys hC hw h hq hp x hx
  obtain ⟨m, hm, hk, r, hr, z, hz, h1, h2⟩ := ha y hy
  exact ⟨m, hm, hk.trans hyk, z, List.mem_flatMap.mpr ⟨r, hr, hz⟩, h1, h2⟩

/-- **C137**: every message of one producer arrives, or in its place the message with the same key of another one; with arbitrary messages of
other blocks, in any order, any number of times. The block is emitted exactly, and never otherwise. -/
theorem C137_delivered (hC : C.Lawful) (hw : WellFormed schema a subs) (h : Redundant C schema a subs ps) {p : SentBlock} (hp : p ∈ ps)
    {cfg : Config} {mp mp' : MP} {received : List RMsg} (hn : newMP cfg = .ok mp) (hk : Keeps env a.number)
    (hf : ∀ m ∈ received, blockOf m.key = a.hash → (∃ q ∈ ps, Copy q.msgs m) ∨ NoContent m)
    (ha : ∀ x ∈ p.msgs, ∃ m ∈ received, m.key = x.key ∧ ∃ q ∈ ps, Copy q.msgs m) (hr : mp.run C env received = .ok mp') :
    (∃ pb ∈ mp'.emitted, Exact cfg.tracked schema a subs pb) ∧ ∀ pb ∈ mp'.emitted, pb.hash = a.hash → Exact cfg.tracked schema a subs pb := by
  have hu := C137_union h (List.ne_nil_of_mem hp)
  have hf' : Faithful a.hash (ps.flatMap (·.msgs)) received := fun m hm hh =>
    (hf m hm hh).imp (fun ⟨q, hq, x, hx, e⟩ => ⟨x, List.mem_flatMap.mpr ⟨q, hq, hx⟩, e⟩) id
  exact ⟨C01_delivered hC hu hw hn hk hf' (C137_arrive hC hw h hp ha) hr, fun pb hpb hh => C02_emitted_exact hC hu hw hn hf' hr hpb hh⟩

/-- A chain each of whose blocks is published by some producers; `blk` names the block, `ps` its producers. -/
structure Spec.Published (C : Codec) (cfg : Config) (n : Int) (chain : List (SentBlock × List SentBlock)) (received : List RMsg) : Prop where
  producers : ∀ e ∈ chain, Redundant C e.1.schema e.1.args e.1.subs e.2
  wellFormed : ∀ e ∈ chain, WellFormed e.1.schema e.1.args e.1.subs
  links : ChainOf cfg.lastHash n cfg.lastWeight (chain.map Prod.fst)
  hashes : (Hash.zero :: cfg.lastHash :: chain.map (·.1.args.hash)).Nodup
  whitelist : ∀ e ∈ chain, ∀ h, cfg.whitelist.get? (heightKey e.1.args.number) = some h → h = e.1.args.hash
  /-- what is received was sent by one of them -/
  only : ∀ m ∈ received, ∃ e ∈ chain, ∃ q ∈ e.2, Copy q.msgs m
  /-- of every block everything one producer sends arrives, from whichever producer -/
  all : ∀ e ∈ chain, ∃ p ∈ e.2, ∀ x ∈ p.msgs, ∃ m ∈ received, m.key = x.key ∧ ∃ q ∈ e.2, Copy q.msgs m

/-- The block with the messages of all its producers. -/
def joined (e : SentBlock × List SentBlock) : SentBlock := ⟨e.1.schema, e.1.args, e.1.subs, e.2.flatMap (·.msgs)⟩

theorem Spec.Published.endToEnd (hC : C.Lawful) {cfg : Config} {n : Int} {chain : List (SentBlock × List SentBlock)} {received : List RMsg}
    (h : Published C cfg n chain received) :
    EndToEnd C cfg n (chain.map joined) received ∧ ∀ s ∈ chain.map joined, AllArrive s.msgs received := by
  have hlinks : ∀ (l : List (SentBlock × List SentBlock)) h0 n w, ChainOf h0 n w (l.map Prod.fst) → ChainOf h0 n w (l.map joined) := by
    intro l
    induction l with
    | nil => intro h0 n w _; trivial
    | cons e l ih => intro h0 n w hl; exact ⟨hl.1, hl.2.1, hl.2.2.1, ih _ _ _ hl.2.2.2⟩
  refine ⟨⟨?_, hlinks _ _ _ _ h.links, by rw [List.map_map]; exact h.hashes, ?_, ?_⟩, ?_⟩
  · intro s hs
    obtain ⟨e, he, rfl⟩ := List.mem_map.mp hs
    obtain ⟨p, hp, _⟩ := h.all e he
    exact ⟨C137_union (h.producers e he) (List.ne_nil_of_mem hp), h.wellFormed e he⟩
  · intro s hs
    obtain ⟨e, he, rfl⟩ := List.mem_map.mp hs
    exact h.whitelist e he
  · intro m hm
    obtain ⟨e, he, q, hq, x, hx, hxm⟩ := h.only m hm
    exact ⟨joined e, List.mem_map.mpr ⟨e, he, rfl⟩, x, List.mem_flatMap.mpr ⟨q, hq, hx⟩, hxm⟩
  · intro s hs
    obtain ⟨e, he, rfl⟩ := List.mem_map.mp hs
    obtain ⟨p, hp, ha⟩ := h.all e he
    exact C137_arrive hC (h.wellFormed e he) (h.producers e he) hp ha

/-- **C137** end to end: the subscribers of the consumer get every block of the chain, once, in order, whoever sent its parts; the consumer does
not fault, and gets to the end of what it received. -/
theorem C137_end_to_end (hC : C.Lawful) {cfg : Config} {n : Int} {chain : List (SentBlock × List SentBlock)} {received : List RMsg}
    (h : Published C cfg n chain received) {s0 s : Sys} (hst : Sys.start cfg (received.map Call.msg) = .ok s0)
    (hs : Sys.Steps C env o s0 s) :
    (¬ Faulty C env o s ∧ ∃ s', Sys.Steps C env o s s' ∧ s'.Drained) ∧
    (s.Drained → Genuine env s → (s.omp.log.flatMap addedBy).length = chain.length ∧
      ∀ x ∈ chain.zip (s.omp.log.flatMap addedBy), Exact cfg.tracked x.1.1.schema x.1.1.args x.1.1.subs x.2) := by
  obtain ⟨he, hall⟩ := h.endToEnd hC
  refine ⟨C44_no_fault he hC hst hs, fun hd hg => ?_⟩
  obtain ⟨_, h2, h3⟩ := C44_end_to_end he hC hall hst hs hd hg
  refine ⟨by rw [h2, List.length_map], ?_⟩
  rintro ⟨e, pb⟩ hx
  refine h3 (joined e, pb) ?_
  rw [List.zip_map_left]
  exact List.mem_map.mpr ⟨(e, pb), hx, rfl⟩

end

/-- All that producer `p` sends for the block. -/
def sentOf (p : Producer) (o : MapOrder) (a : BlockArgs) (subs : Hash → SubArgs) : List Msg :=
  match addBlock' Avro.codec o p a with
  | (p', .ok tm) => flat tm ++ a.batches.entries.flatMap (fun e => match sendBatch Avro.codec o p' e.2 (subs e.2).deletes (subs e.2).updates with
    | (_, .ok tm') => flat tm'
    | _ => [])
  | _ => []

theorem sentOf_sent {p : Producer} {o : MapOrder} {a : BlockArgs}
    (h : (match (addBlock' Avro.codec o p a).2 with | .ok _ => true | .error _ => false) = true) (subs : Hash → SubArgs) :
    SentBy Avro.codec p.schema a subs (sentOf p o a subs) := by
  unfold sentOf
  generalize hr : addBlock' Avro.codec o p a = r at h
  obtain ⟨p', r⟩ := r
  cases r with
  | error e => simp at h
  | ok tm =>
    obtain ⟨b, _, _, _, _, _, _, _, _, h9, _⟩ := addBlock_ok hr
    have hs : ∀ path id, a.batches.get? path = some id → ∃ q' tm', sendBatch Avro.codec o p' id (subs id).deletes (subs id).updates = (q', .ok tm') := by
      intro path id hp
      obtain ⟨k, _, hk⟩ := h9 id (List.mem_map.mpr ⟨(path, id), (GMap.get?_eq_some_iff _).mp hp, rfl⟩)
      exact ⟨_, _, sendBatch_some hk⟩
    refine ⟨o, p, p', tm, fun id => match sendBatch Avro.codec o p' id (subs id).deletes (subs id).updates with | (_, .ok tm') => flat tm' | _ => [],
      rfl, hr, ?_, ?_⟩
    · intro path id hp
      obtain ⟨q', tm', e⟩ := hs path id hp
      exact ⟨o, p', q', tm', rfl, e, by simp only [e]⟩
    · intro m
      simp only [List.mem_append, List.mem_flatMap]
      constructor
      · rintro (h | ⟨e, he, hm⟩)
        · exact .inl h
        · exact .inr ⟨e.1, e.2, (GMap.get?_eq_some_iff _).mpr he, hm⟩
      · rintro (h | ⟨path, id, hp, hm⟩)
        · exact .inl h
        · exact .inr ⟨(path, id), (GMap.get?_eq_some_iff _).mp hp, hm⟩

/-- The sub-batch of the example block with two deletes, in one order and the other. -/
def redSubs (swap : Bool) (_ : Hash) : SubArgs :=
  ⟨if swap then [str "state/sub/w", str "state/sub/z"] else [str "state/sub/z", str "state/sub/w"], GMap.empty.insert (str "state/sub/y") [8]⟩

theorem redSubs_wf : WellFormed exProducer.schema exBlock (redSubs false) :=
  { exBlock_wf with
    subDel := by
      intro path id k _ hk hd
      simp only [redSubs, Bool.false_eq_true, if_false, List.mem_cons, List.not_mem_nil, or_false] at hk
      rcases hk with rfl | rfl
      · exact absurd hd (by decide +kernel)
      · exact absurd hd (by decide +kernel)
    lenSubDel := by
      intro path id _
      simp only [redSubs, Bool.false_eq_true, if_false]
      decide +kernel }

/-- Two producers of the example block that go through their maps in different orders. -/
def redFirst : SentBlock := ⟨exProducer.schema, exBlock, redSubs false, sentOf exProducer .plain exBlock (redSubs false)⟩
def redSecond : SentBlock := ⟨exProducer.schema, exBlock, redSubs true, sentOf exProducer .rev exBlock (redSubs true)⟩

theorem red_redundant : Redundant Avro.codec exProducer.schema exBlock (redSubs false) [redFirst, redSecond] := by
  intro p hp
  simp only [List.mem_cons, List.not_mem_nil, or_false] at hp
  rcases hp with rfl | rfl
  · exact ⟨.refl .., sentOf_sent (p := exProducer) (o := .plain) (a := exBlock) (by decide +kernel) _⟩
  · exact ⟨⟨rfl, rfl, rfl, rfl, fun _ => rfl, fun _ => rfl, fun _ => rfl, fun _ _ _ => Iff.rfl, fun _ _ _ _ => rfl, fun _ _ _ => .swap ..⟩,
      sentOf_sent (p := exProducer) (o := .rev) (a := exBlock) (by decide +kernel) _⟩

/-- The header as the second sends it, the rest as the first does. -/
def redReceived : List RMsg := recv ((redFirst.msgs.drop 1).reverse ++ redSecond.msgs.take 1)

/-- The hypotheses of `C137_delivered` are satisfiable with parts of two producers neither of which got everything through. -/
example : ∃ mp', redFirst ∈ [redFirst, redSecond] ∧ (∀ m ∈ redReceived, ∃ q ∈ [redFirst, redSecond], Copy q.msgs m) ∧
    (∀ x ∈ redFirst.msgs, ∃ m ∈ redReceived, m.key = x.key ∧ ∃ q ∈ [redFirst, redSecond], Copy q.msgs m) ∧
    (∀ q ∈ [redFirst, redSecond], ∃ m ∈ redReceived, ¬ Copy q.msgs m) ∧
    exMP.run Avro.codec exEnv redReceived = .ok mp' ∧ ∃ pb ∈ mp'.emitted, Exact exCfg.tracked exProducer.schema exBlock (redSubs false) pb := by
  have hc : ∀ m ∈ redReceived, ∃ q ∈ [redFirst, redSecond], Copy q.msgs m := by
    intro m hm
    obtain ⟨x, hx, e⟩ := recv_copy (ms := (redFirst.msgs.drop 1).reverse ++ redSecond.msgs.take 1) (fun _ h => h) hm
    rcases List.mem_append.mp hx with hx | hx
    · exact ⟨redFirst, by simp, x, List.mem_of_mem_drop (List.mem_reverse.mp hx), e⟩
    · exact ⟨redSecond, by simp, x, List.mem_of_mem_take hx, e⟩
  have ha : ∀ x ∈ redFirst.msgs, ∃ m ∈ redReceived, m.key = x.key ∧ ∃ q ∈ [redFirst, redSecond], Copy q.msgs m := by
    have : ∀ x ∈ redFirst.msgs, ∃ m ∈ redReceived, m.key = x.key := by decide +kernel
    intro x hx
    obtain ⟨m, hm, e⟩ := this x hx
    exact ⟨m, hm, e, hc m hm⟩
  obtain ⟨mp', hr, _⟩ := ex_ok (r := exMP.run Avro.codec exEnv redReceived) (fun _ => true) (by decide +kernel)
  refine ⟨mp', by simp, hc, ha, ?_, hr,
    (C137_delivered Avro.codec_lawful redSubs_wf red_redundant (by simp) exMP_new (exEnv_keeps _) (fun m hm _ => .inl (hc m hm)) ha hr).1⟩
  have hno : ∀ q ∈ [redFirst, redSecond], ∃ m ∈ redReceived, ∀ x ∈ q.msgs, ¬ (m.key = x.key ∧ m.value = x.value) := by decide +kernel
  intro q hq
  obtain ⟨m, hm, hx⟩ := hno q hq
  exact ⟨m, hm, fun ⟨x, h1, h2⟩ => hx x h1 h2⟩

/-- The hypotheses of `C137_end_to_end` are satisfiable by the same messages. -/
example : ∃ s0 s, Published Avro.codec exSysCfg 4 [(redFirst, [redFirst, redSecond])] redReceived ∧
    Sys.start exSysCfg (redReceived.map Call.msg) = .ok s0 ∧ Sys.Steps Avro.codec exEnv .plain s0 s ∧ s.Drained ∧ Genuine exEnv s := by
  have hc : ∀ m ∈ redReceived, ∃ q ∈ [redFirst, redSecond], Copy q.msgs m := by
    intro m hm
    obtain ⟨x, hx, e⟩ := recv_copy (ms := (redFirst.msgs.drop 1).reverse ++ redSecond.msgs.take 1) (fun _ h => h) hm
    rcases List.mem_append.mp hx with hx | hx
    · exact ⟨redFirst, by simp, x, List.mem_of_mem_drop (List.mem_reverse.mp hx), e⟩
    · exact ⟨redSecond, by simp, x, List.mem_of_mem_take hx, e⟩
  have hP : Published Avro.codec exSysCfg 4 [(redFirst, [redFirst, redSecond])] redReceived := by
    refine ⟨?_, ?_, ⟨rfl, rfl, by decide, trivial⟩, by decide +kernel, ?_, ?_, ?_⟩
    · intro e he; rw [List.mem_singleton] at he; subst he; exact red_redundant
    · intro e he; rw [List.mem_singleton] at he; subst he; exact redSubs_wf
    · intro e he h hx; simp [exSysCfg, exCfg] at hx
    · intro m hm; exact ⟨_, List.mem_singleton.mpr rfl, hc m hm⟩
    · intro e he; rw [List.mem_singleton] at he; subst he
      refine ⟨redFirst, by simp, ?_⟩
      have : ∀ x ∈ redFirst.msgs, ∃ m ∈ redReceived, m.key = x.key := by decide +kernel
      intro x hx
      obtain ⟨m, hm, e⟩ := this x hx
      exact ⟨m, hm, e, hc m hm⟩
  have hst : ∃ s0, Sys.start exSysCfg (redReceived.map Call.msg) = .ok s0 := ⟨_, rfl⟩
  obtain ⟨s0, hst⟩ := hst
  obtain ⟨s, hs, hd⟩ := (C137_end_to_end (env := exEnv) (o := .plain) Avro.codec_lawful hP hst .refl).1.2
  exact ⟨s0, s, hP, hst, hs, hd, by intro t n hn; simp [exEnv] at hn⟩

/-- A block whose updates all have the prefix of the example schema, and a producer without a schema. -/
def redArgs : BlockArgs := { exBlock with updates := (GMap.empty.insert (str "state/a") [1]).insert (str "state/b") [2], deletes := GMap.empty, batches := GMap.empty }
def redBare : Producer := ⟨[], str "d", GMap.empty⟩

theorem redArgs_get {k : GoStr} {v : Bytes} (h : redArgs.updates.get? k = some v) : (k = str "state/b" ∧ v = [2]) ∨ (k = str "state/a" ∧ v = [1]) := by
  rcases get_insert_cases h with h | h
  · exact .inl h
  · rcases get_insert_cases h with h | h
    · exact .inr h
    · simp at h

theorem redArgs_wf (p : Producer) (hp : p = exProducer ∨ p = redBare) : WellFormed p.schema redArgs exSubs := by
  have hu := @redArgs_get
  have hb : ∀ {p i}, ¬ redArgs.batches.get? p = some i := by intro p i h; simp [redArgs] at h
  have hd : ∀ {k}, ¬ k ∈ redArgs.deletes.keys := by intro k h; simp [redArgs, GMap.keys, GMap.empty] at h
  have hro : ∀ {k pre t}, Routes p.schema k pre t → pre = str "state/" := by
    intro k pre t h
    rcases hp with rfl | rfl
    · exact (routes_lit.mp h).2.1
    · have := firstMatch_some_iff.mpr h
      simp [redBare, firstMatch] at this
  refine ⟨⟨by decide, ?_, ?_, ?_, fun _ _ _ h => absurd h hb, fun _ _ _ _ _ h => absurd h hb, fun _ _ _ h => absurd h hb,
    by decide +kernel, fun _ _ h => absurd h hb, by decide, by decide +kernel, by decide +kernel, ?_, fun _ h => absurd h hd, ?_,
    fun _ _ _ _ h => absurd h hb, fun _ _ h => absurd h hb⟩, ?_⟩
  · intro k pre topic hk hr
    obtain rfl := hro hr
    rcases hk with hk | hk
    · obtain ⟨v, hv⟩ := (GMap.mem_keys_iff _).mp hk
      rcases hu hv with ⟨rfl, _⟩ | ⟨rfl, _⟩
      · exact ex_dirs _ (str "b") (by decide +kernel) (by decide +kernel)
      · exact ex_dirs _ (str "a") (by decide +kernel) (by decide +kernel)
    · exact absurd hk hd
  · rintro x y ⟨_, _, _, h1⟩ ⟨_, _, _, h2⟩ _
    rw [hro h1, hro h2]
  · intro k _ _ h; exact hd h
  · intro k v h; rcases hu h with ⟨rfl, rfl⟩ | ⟨rfl, rfl⟩ <;> decide +kernel
  · intro k hk
    obtain ⟨i, hi⟩ := (GMap.mem_keys_iff _).mp hk
    exact absurd hi hb
  · intro k v h; rcases hu h with ⟨rfl, rfl⟩ | ⟨rfl, rfl⟩ <;> decide +kernel

/-- **C137**, why the schemas must agree: two producers are given the same block; one sends the updates as messages of their
own, the other all in the header. The header of the first arrives, its other messages do not (it crashed), and everything the second sends arrives.
Either's messages by themselves are a correct block, but the block is not emitted: the second header is ignored. -/
theorem C137_schemas_matter : ∃ (p q : Producer) (a : BlockArgs) (ms ms' : List Msg) (received : List RMsg) (mp' : MP),
    SentBy Avro.codec p.schema a exSubs ms ∧ SentBy Avro.codec q.schema a exSubs ms' ∧ WellFormed p.schema a exSubs ∧ WellFormed q.schema a exSubs ∧
    (∀ m ∈ received, Copy ms m ∨ Copy ms' m) ∧ AllArrive ms' received ∧ Keeps exEnv a.number ∧
    exMP.run Avro.codec exEnv received = .ok mp' ∧ mp'.emitted = [] := by
  let ms := sentOf exProducer .plain redArgs exSubs
  let ms' := sentOf redBare .plain redArgs exSubs
  have hsub : ∀ x ∈ ms.take 1 ++ ms', x ∈ ms ++ ms' := by
    intro x hx
    rcases List.mem_append.mp hx with h | h
    · simp [List.mem_of_mem_take h]
    · simp [h]
  obtain ⟨mp', hr, he⟩ := ex_ok (r := exMP.run Avro.codec exEnv (recv (ms.take 1 ++ ms'))) (fun s => s.emitted.isEmpty) (by decide +kernel)
  refine ⟨exProducer, redBare, redArgs, ms, ms', _, mp', sentOf_sent (p := exProducer) (o := .plain) (a := redArgs) (by decide +kernel) _,
    sentOf_sent (p := redBare) (o := .plain) (a := redArgs) (by decide +kernel) _, redArgs_wf _ (.inl rfl), redArgs_wf _ (.inr rfl), ?_, ?_,
    exEnv_keeps _, hr, by simpa using he⟩
  · intro m hm
    obtain ⟨x, hx, e⟩ := recv_copy hsub hm
    exact (List.mem_append.mp hx).imp (fun h => ⟨x, h, e⟩) (fun h => ⟨x, h, e⟩)
  · intro x hx
    obtain ⟨m, hm, h1, h2⟩ := recv_exact (ms := ms.take 1 ++ ms') (x := x) (by simp [hx])
    exact ⟨m, hm, h1, x, hx, h1, h2⟩

end Verif
