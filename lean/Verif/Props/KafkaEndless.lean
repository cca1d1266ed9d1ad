import Verif.Props.KafkaForks
import Verif.Props.Endless
/-!
# C120: the whole Kafka consumer, with forks, without end

C111 is about trees that fit the window. Here the tree is of any size, as in C119, from the partitions to the subscribers.
-/
namespace Verif
open Spec

variable {C : Codec} {env : Env} {o : MapOrder} {topic : GoStr}

section
variable {cfg : Config} {root : SentBlock} {tree : List SentBlock} {np : Nat} {start : Nat → Int} {msgs : Nat → List RMsg}

/-- The messages of blocks among those read so far. -/
def Spec.blockMsgs (k : KSys) : List RMsg := k.seen.filter (fun m => Ordinary m)

/-- What has been read is the beginning of messages that complete the blocks of the tree in order. -/
def Spec.ReadInOrder (cfg : Config) (tree : List SentBlock) (k : KSys) : Prop := ∃ rest, Spec.Ordered cfg tree (blockMsgs k ++ rest)

/-- The rest of the messages may be thought of as waiting. -/
theorem kcausal_more {k0 k : KSys} (h0 : KSys.start cfg np start msgs = .ok k0) (h : KCausal C env o topic k0 k) (rest : List RMsg) :
    ∃ s0, Sys.start cfg ((blockMsgs k ++ rest).map Call.msg) = .ok s0 ∧ CausalSteps C env o s0 (k.sys.more (rest.map Call.msg)) := by
  obtain ⟨s0, r1, r2⟩ := kcausal_run h0 h
  refine ⟨_, ?_, causal_more r2 (rest.map Call.msg)⟩
  rw [List.map_append]
  exact start_more r1

theorem faulty_more {s : Sys} (h : Faulty C env o s) (cs : List Call) : Faulty C env o (s.more cs) := by
  rcases h with ⟨c, cs', f, e, h⟩ | h
  · exact .inl ⟨c, cs' ++ cs, f, by simp [Sys.more, e], h⟩
  · exact .inr h

theorem Spec.KafkaTree.readInOrder (h : KafkaTree C cfg root tree np start msgs) {rest : List RMsg} {l : List RMsg}
    (ho : Spec.Ordered cfg tree (l ++ rest)) : SentTree C cfg root tree (l ++ rest) :=
  ⟨h.toHeaderTree, h.correct, ho.inOrder.only (fun _ h => h)⟩

/-- If `ProcessMessage` and the ordering layer are not about to fault, something can go on or everything has been done. -/
theorem Spec.KafkaTree.goesOn (h : KafkaTree C cfg root tree np start msgs) (hC : C.Lawful) {k : KSys} (hv : KInv C env o cfg np start msgs k)
    (hnf : ¬ Faulty C env o k.sys) : ¬ k.Faulting C env o topic ∧
      ((∃ k', KSys.Step C env o topic k k') ∨
        k.sys.Drained ∧ k.taken = k.w.out.length ∧ ∀ i, i < np → forwarded k.w.out i = msgs i) := by
  refine ⟨?_, ?_⟩
  · rintro (⟨i, m, f, hm, hf⟩ | hf)
    · obtain ⟨a, ha, _⟩ := h.calm (topic := topic) hC hv (List.mem_of_getElem? hm) k.wg
      rw [ha] at hf
      simp at hf
    · exact hnf hf
  · by_cases hd : k.sys.Drained
    · by_cases htk : k.taken < k.w.out.length
      · left
        obtain ⟨a, ha, hr⟩ := h.calm (topic := topic) hC hv (List.getElem_mem htk) k.wg
        exact ⟨_, .take hd.1 hd.2.1 (List.getElem?_eq_getElem htk) ha hr⟩
      · have htk : k.taken = k.w.out.length := by have := hv.taken; omega
        by_cases hw : ∃ t, WState.Step k.w t
        · left
          obtain ⟨t, ht⟩ := hw
          refine ⟨_, .part ht ?_⟩
          rw [htk]
          unfold messagesCap
          cases ht <;> simp [WState.upd]
        · right
          exact ⟨hd, htk, fun i hi => C67_all_partial hv.w h.warm (fun t ht => hw ⟨t, ht⟩) i hi⟩
    · left
      obtain ⟨s, hs⟩ := (k.sys.progress (C := C) (env := env) (o := o) hd).resolve_right hnf
      exact ⟨_, .inner hs⟩

/-- **C120**, while running: if what has been read so far, from however many partitions, is the beginning of messages that complete the blocks
in order, then nothing is about to fault; something can go on unless everything has been read and handled; the blocks given to the ordering
layer are the first ones of the tree, each once; the head of the subscribers is the first-handled heaviest block; and what was asked to be
dropped had been forgotten. -/
theorem C120_head (h : KafkaTree C cfg root tree np start msgs) (hC : C.Lawful) {k0 k : KSys} (h0 : KSys.start cfg np start msgs = .ok k0)
    (hk : KCausal C env o topic k0 k) (ho : ReadInOrder cfg tree k) :
    ¬ k.Faulting C env o topic ∧
    ((∃ k', KSys.Step C env o topic k k') ∨
      k.sys.Drained ∧ k.taken = k.w.out.length ∧ ∀ i, i < np → forwarded k.w.out i = msgs i) ∧
    (∃ j, hashes k.sys.mp.emitted = (tree.take j).map (·.args.hash)) ∧
    (blocksOf k.sys.ops ≠ [] → FirstHeaviest (blocksOf k.sys.ops) k.sys.omp.lastHash) ∧
    ∀ j, OOut.evictOlder j ∈ k.sys.omp.log → Forgotten (2 * cfg.reorgThreshold) k.sys.mp.emitted j := by
  obtain ⟨rest, ho⟩ := ho
  obtain ⟨s0, r1, r2⟩ := kcausal_more h0 hk rest
  have hT := h.readInOrder ho
  obtain ⟨g1, g2⟩ := h.goesOn (topic := topic) hC (kinv_steps h0 hk.steps)
    (fun hf => (C119_no_fault hT hC ho r1 r2).1 (faulty_more hf _))
  have g3 := C119_head hT hC ho r1 r2
  exact ⟨g1, g2, g3⟩

/-- **C120**, at rest: every block of the tree has been given to the ordering layer exactly once and in order, and the subscribers, having applied
all updates, hold a chain of blocks exactly as produced that ends in a block of maximal weight of the whole tree. -/
theorem C120_end (h : KafkaTree C cfg root tree np start msgs) (hC : C.Lawful) {k0 k : KSys} (h0 : KSys.start cfg np start msgs = .ok k0)
    (hk : KCausal C env o topic k0 k) (ho : Spec.Ordered cfg tree (blockMsgs k)) (hstuck : ∀ k', ¬ KSys.Step C env o topic k k')
    (hg : Heard env k.sys) :
    hashes (blocksOf k.sys.ops) = tree.map (·.args.hash) ∧
    ∃ base chain top, Replays cfg.lastHash k.sys.omp.log base chain ∧ Linked base chain ∧ endOf base chain = top.args.hash ∧
      top ∈ tree ∧ (∀ sb ∈ tree, sb.args.weight ≤ top.args.weight) ∧
      ∀ b ∈ chain, ∃ sb ∈ tree, Exact cfg.tracked sb.schema sb.args sb.subs b := by
  have ho' : Spec.Ordered cfg tree (blockMsgs k ++ []) := by rw [List.append_nil]; exact ho
  obtain ⟨hd, -, -⟩ := ((C120_head h hC h0 hk ⟨[], ho'⟩).2.1).resolve_left (fun ⟨k', hk'⟩ => hstuck k' hk')
  obtain ⟨s0, r1, r2⟩ := kcausal_run h0 hk
  have hT := h.readInOrder ho'
  rw [List.append_nil] at hT
  exact C119_end hT hC ho r1 r2 hd hg

/-! ### One partition -/

/-- With one partition, what has been read is its beginning. -/
theorem one_partition {k0 k : KSys} (h0 : KSys.start cfg 1 start msgs = .ok k0) (hk : KSys.Steps C env o topic k0 k) :
    k.seen <+: msgs 0 ∧ (k.taken = k.w.out.length → (∀ i, i < 1 → forwarded k.w.out i = msgs i) → k.seen = msgs 0) := by
  have hv := kinv_steps h0 hk
  have hall : k.w.out.map Prod.snd = forwarded k.w.out 0 := by
    unfold forwarded
    rw [List.filter_eq_self.mpr]
    rintro ⟨i, m⟩ hm
    have := (hv.source hm).1
    simp only [decide_eq_true_eq]
    omega
  have hseen : k.seen = (k.w.out.map Prod.snd).take k.taken := by unfold KSys.seen; rw [List.map_take]
  constructor
  · rw [hseen, hall]
    exact (List.take_prefix _ _).trans (C67_prefix hv.w 0)
  · intro htk hf
    rw [hseen, htk, hall, hf 0 Nat.one_pos, List.take_of_length_le]
    rw [← hf 0 Nat.one_pos, ← hall, List.length_map]
    exact Nat.le_refl _

/-- **C120**, one partition: the order is that of the partition. -/
theorem C120_one (h : KafkaTree C cfg root tree 1 start msgs) (hC : C.Lawful) (ho : Spec.Ordered cfg tree ((msgs 0).filter (fun m => Ordinary m)))
    {k0 k : KSys} (h0 : KSys.start cfg 1 start msgs = .ok k0) (hk : KCausal C env o topic k0 k) :
    ReadInOrder cfg tree k ∧ ((∀ k', ¬ KSys.Step C env o topic k k') → Spec.Ordered cfg tree (blockMsgs k)) := by
  obtain ⟨⟨t, ht⟩, hend⟩ := one_partition h0 hk.steps
  have hR : ReadInOrder cfg tree k := ⟨t.filter (fun m => Ordinary m), by unfold blockMsgs; rw [← List.filter_append, ht]; exact ho⟩
  refine ⟨hR, ?_⟩
  intro hstuck
  obtain ⟨-, htk, hf⟩ := ((C120_head h hC h0 hk hR).2.1).resolve_left (fun ⟨k', hk'⟩ => hstuck k' hk')
  unfold blockMsgs
  rw [hend htk hf]
  exact ho

end

/-! ### With the producer -/

theorem recent_cast {n : Int} {a b : List SentBlock} (e : a.map bare = b.map bare) (h : NotBelow n a) : NotBelow n b := by
  intro p rest er x hx hnr y hy
  rw [er, List.map_append] at e
  obtain ⟨p', r', rfl, e1, e2⟩ := List.map_eq_append_iff.mp e
  have hx' : bare x ∈ p'.map bare := by rw [e1]; exact List.mem_map.mpr ⟨x, hx, rfl⟩
  have hy' : bare y ∈ r'.map bare := by rw [e2]; exact List.mem_map.mpr ⟨y, hy, rfl⟩
  obtain ⟨x', hx', ex⟩ := List.mem_map.mp hx'
  obtain ⟨y', hy', ey⟩ := List.mem_map.mp hy'
  have e3 : x'.args.number = x.args.number := congrArg PB.number ex
  have e4 : y'.args.number = y.args.number := congrArg PB.number ey
  have e5 : x'.args.hash = x.args.hash := congrArg PB.hash ex
  rw [← e3, ← e4]
  exact h p' r' rfl x' hx' (by rw [e1, e5]; exact hnr) y' hy'

/-- Messages in the order of the blocks. -/
theorem in_order_of_stored {n : Int} {tree : List SentBlock} : ∀ (j : Nat) (order : List SentBlock) (l : List RMsg), order.length = j →
    l.map (fun r => (⟨r.key, r.value⟩ : Msg)) = order.flatMap (·.msgs) → BlockByBlock n tree order l := by
  intro j
  induction j with
  | zero =>
    intro order l hj e
    have := List.length_eq_zero_iff.mp hj
    subst this
    simp only [List.flatMap_nil, List.map_eq_nil_iff] at e
    subst e
    exact .nil
  | succ j ih =>
    intro order l hj e
    have hne : order ≠ [] := by intro h; rw [h] at hj; simp at hj
    rw [← List.dropLast_concat_getLast hne] at e ⊢
    generalize hb : order.getLast hne = b at e
    have hlen : order.dropLast.length = j := by simp [hj]
    generalize order.dropLast = order' at e hlen
    rw [List.flatMap_append] at e
    obtain ⟨l1, l2, rfl, e1, e2⟩ := List.map_eq_append_iff.mp e
    simp only [List.flatMap_cons, List.flatMap_nil, List.append_nil] at e2
    refine (ih order' l1 hlen e1).next ?_ ?_
    · intro m hm
      refine .inl ⟨⟨m.key, m.value⟩, ?_, rfl, rfl⟩
      rw [← e2]
      exact List.mem_map.mpr ⟨m, hm, rfl⟩
    · intro x hx
      have hx' := hx
      rw [← e2] at hx
      obtain ⟨m, hm, rfl⟩ := List.mem_map.mp hx
      exact ⟨m, by simp [hm], rfl, _, hx', rfl, rfl⟩

variable {E : ErrSched} {dp : Producer} {root : BlockArgs × (Hash → SubArgs)} {bs : List (BlockArgs × (Hash → SubArgs))} {kp : KP} {cfg : Config}
  {start : Int} {ms : List RMsg}

/-- The headers of the blocks given to a producer. -/
def Spec.headersOf (dp : Producer) (bs : List (BlockArgs × (Hash → SubArgs))) : List PB := (bs.map (givenBlock dp)).map bare

/-- **C120**, from end to end: a Kafka producer was given the blocks of a tree, parents first, however many; each call returned nil and the
messages are stored in one partition. Each block branches off at a recent one and none is lower than one forgotten. Then, under any schedule
and whatever is dropped on request, nothing faults or waits for ever before all is read and handled, the head is at every moment the
first-handled heaviest block, and at rest the ordering layer was given every block once and in order, and the subscribers hold a chain of
blocks as produced that ends in a heaviest block. -/
theorem C120_published (h : KafkaTreeLink C E dp root bs kp cfg start ms) (hC : C.Lawful)
    (htr : AllTracked (2 * cfg.reorgThreshold) cfg.lastHash (headersOf dp bs)) (hnb : NotBelow (2 * cfg.reorgThreshold) (bs.map (givenBlock dp)))
    {k0 k : KSys} (h0 : KSys.start cfg 1 (fun _ => start) (fun _ => ms) = .ok k0) (hk : KCausal C env o topic k0 k) :
    ¬ k.Faulting C env o topic ∧ (blocksOf k.sys.ops ≠ [] → FirstHeaviest (blocksOf k.sys.ops) k.sys.omp.lastHash) ∧
    ((∀ k', ¬ KSys.Step C env o topic k k') → k.seen = ms ∧ (Heard env k.sys →
      hashes (blocksOf k.sys.ops) = bs.map (·.1.hash) ∧
      ∃ base chain top, Replays cfg.lastHash k.sys.omp.log base chain ∧ Linked base chain ∧ endOf base chain = top.1.hash ∧
        top ∈ bs ∧ (∀ b ∈ bs, b.1.weight ≤ top.1.weight) ∧ ∀ x ∈ chain, ∃ b ∈ bs, Exact cfg.tracked dp.schema b.1 b.2 x)) := by
  obtain ⟨tree, r, h1, h2, h3, h3m, h4⟩ := h.feedOrder hC
  have hbare : (bs.map (givenBlock dp)).map bare = tree.map bare := by rw [← h1]; simp [givenBlock, bare, Function.comp_def]
  have hfil : ms.filter (fun m => Ordinary m) = ms.filter (fun r => decide (r.key ≠ [] ∧ r.key.head? ≠ some PingType)) := by
    refine List.filter_congr fun m hm => ?_
    rw [Bool.eq_iff_iff]
    simp only [decide_eq_true_eq]
    constructor
    · intro ho; exact ⟨ho.1, ho.2.2.1⟩
    · rintro ⟨e1, e2⟩
      rcases h3.only 0 Nat.one_pos m hm with e | e | ⟨s, hs, e⟩
      · exact (e1 e).elim
      · exact (e2 e).elim
      · exact copy_ordinary hC (h3.correct s hs) e
  have ho : Spec.Ordered cfg tree (ms.filter (fun m => Ordinary m)) := by
    refine ⟨in_order_of_stored _ tree _ rfl ?_, by rw [← hbare]; exact htr, recent_cast hbare hnb⟩
    rw [hfil, h.stored, h3m]
  obtain ⟨hR, hend⟩ := C120_one h3 hC ho h0 hk
  obtain ⟨g1, g2, _, g3, _⟩ := C120_head h3 hC h0 hk hR
  refine ⟨g1, g3, fun hstuck => ⟨?_, fun hg => ?_⟩⟩
  · obtain ⟨-, htk, hf⟩ := g2.resolve_left (fun ⟨k', hk'⟩ => hstuck k' hk')
    exact (one_partition h0 hk.steps).2 htk hf
  · obtain ⟨f1, base, chain, top, q1, q2, q3, q4, q5, q6⟩ := C120_end h3 hC h0 hk (hend hstuck) hstuck hg
    refine ⟨by rw [f1, ← h1]; simp [Function.comp_def], base, chain, (top.args, top.subs), q1, q2, q3,
      by rw [← h1]; exact List.mem_map.mpr ⟨top, q4, rfl⟩, ?_, ?_⟩
    · intro b hb
      rw [← h1] at hb
      obtain ⟨s, hs, rfl⟩ := List.mem_map.mp hb
      exact q5 s hs
    · intro x hx
      obtain ⟨sb, hsb, he⟩ := q6 x hx
      rw [h2 sb hsb] at he
      exact ⟨(sb.args, sb.subs), by rw [← h1]; exact List.mem_map.mpr ⟨sb, hsb, rfl⟩, he⟩

/-! ### An example: six blocks, a fork, and a window of four -/

/-- A producer that was given the six blocks. -/
def exKP6 : KP := exSix.foldl exPublish (newKP exProducer)

theorem exPublishes6 : Publishes Avro.codec (fun _ => none) (newKP exProducer) (exSix.map (fun a => (a, exSubs))) exKP6 := by
  have pair : ∀ {α : Type} {r : α × Option Err}, r.2.isNone = true → r = (r.1, none) := by
    rintro α ⟨x, y⟩ h
    cases y with
    | none => rfl
    | some e => simp at h
  have hl : ∀ a : BlockArgs, a.batches = exBlock.batches → ∀ x, x ∈ [exHash 9] ↔ ∃ path, a.batches.get? path = some x := by
    intro a e x
    rw [e]
    simp only [exBlock, List.mem_singleton, GMap.get?_insert]
    constructor
    · rintro rfl; exact ⟨str "state/sub", by simp⟩
    · rintro ⟨path, h⟩
      split at h
      · exact (Option.some.inj h).symm
      · simp at h
  show Publishes Avro.codec (fun _ => none) (newKP exProducer) ([] ++ [(exLike 5 1 2 300, exSubs)] ++ [(exLike 6 3 1 310, exSubs)] ++
    [(exLike 6 5 1 320, exSubs)] ++ [(exLike 7 6 5 330, exSubs)] ++ [(exLike 8 7 6 340, exSubs)] ++ [(exLike 9 8 7 350, exSubs)]) exKP6
  refine .block (l := [exHash 9]) (o := .plain) (o' := .plain) (.block (l := [exHash 9]) (o := .plain) (o' := .plain)
    (.block (l := [exHash 9]) (o := .plain) (o' := .plain) (.block (l := [exHash 9]) (o := .plain) (o' := .plain)
    (.block (l := [exHash 9]) (o := .plain) (o' := .plain) (.block (l := [exHash 9]) (o := .plain) (o' := .plain) .nil
    (pair (by decide +kernel)) (.sub (o := .plain) (o' := .plain) (l := []) .nil (by simp) (pair (by decide +kernel))) (hl _ rfl))
    (pair (by decide +kernel)) (.sub (o := .plain) (o' := .plain) (l := []) .nil (by simp) (pair (by decide +kernel))) (hl _ rfl))
    (pair (by decide +kernel)) (.sub (o := .plain) (o' := .plain) (l := []) .nil (by simp) (pair (by decide +kernel))) (hl _ rfl))
    (pair (by decide +kernel)) (.sub (o := .plain) (o' := .plain) (l := []) .nil (by simp) (pair (by decide +kernel))) (hl _ rfl))
    (pair (by decide +kernel)) (.sub (o := .plain) (o' := .plain) (l := []) .nil (by simp) (pair (by decide +kernel))) (hl _ rfl))
    (pair (by decide +kernel)) (.sub (o := .plain) (o' := .plain) (l := []) .nil (by simp) (pair (by decide +kernel))) (hl _ rfl)

/-- A ping, a heartbeat and everything that was sent. -/
def exSixPart : List RMsg := recv (⟨PingType :: (exHash 5).bytes, []⟩ :: ⟨[], []⟩ :: exKP6.sent.map Prod.snd)

theorem exSixLink : KafkaTreeLink Avro.codec (fun _ => none) exProducer (exLike 5 1 2 300, exSubs) (exSix.map (fun a => (a, exSubs))) exKP6
    exForkCfg 0 exSixPart := by
  refine ⟨exPublishes6, ?_, ?_, ?_, ?_, ?_⟩
  · intro b hb
    obtain ⟨a, ha, rfl⟩ := List.mem_map.mp hb
    obtain ⟨ms, _, hw⟩ := exSix_sent a ha
    exact hw
  · refine ⟨List.mem_cons_self, rfl, rfl, show (0 : Int) < 300 by decide, ?_, ?_, ?_, ?_⟩
    · show exHash 2 ∉ [exHash 1, exHash 3, exHash 5, exHash 6, exHash 7, exHash 8]
      decide
    · intro s hs
      simp only [exSix, List.map_cons, List.map_nil, List.mem_cons, List.not_mem_nil, or_false] at hs
      have hm : ∀ a ∈ exSix, givenBlock exProducer (a, exSubs) ∈ (exSix.map (fun a => (a, exSubs))).map (givenBlock exProducer) := fun a ha =>
        List.mem_map.mpr ⟨(a, exSubs), List.mem_map.mpr ⟨a, ha, rfl⟩, rfl⟩
      rcases hs with rfl | rfl | rfl | rfl | rfl | rfl
      · exact .inl rfl
      · exact .inr ⟨_, hm (exLike 5 1 2 300) (by simp [exSix]), rfl, rfl, show (300 : Int) < 310 by decide⟩
      · exact .inr ⟨_, hm (exLike 5 1 2 300) (by simp [exSix]), rfl, rfl, show (300 : Int) < 320 by decide⟩
      · exact .inr ⟨_, hm (exLike 6 5 1 320) (by simp [exSix]), rfl, rfl, show (320 : Int) < 330 by decide⟩
      · exact .inr ⟨_, hm (exLike 7 6 5 330) (by simp [exSix]), rfl, rfl, show (330 : Int) < 340 by decide⟩
      · exact .inr ⟨_, hm (exLike 8 7 6 340) (by simp [exSix]), rfl, rfl, show (340 : Int) < 350 by decide⟩
    · show [Hash.zero, exHash 1, exHash 3, exHash 5, exHash 6, exHash 7, exHash 8].Nodup
      decide
    · intro s _ x hx
      simp [exForkCfg, exCfg] at hx
  · intro l1 b l2 e
    obtain ⟨k1, k', e1, rfl, e2⟩ := List.map_eq_append_iff.mp e
    obtain ⟨a, k2, rfl, rfl, rfl⟩ := List.map_eq_cons_iff.mp e2
    have : ∀ x ∈ splits exSix, x.2.1.hash = exHash 1 ∨ ∃ p ∈ x.1, p.hash = x.2.1.parentHash := by decide +kernel
    have hs : (k1, a, k2) ∈ splits exSix := by rw [e1]; exact mem_splits
    rcases this _ hs with h | ⟨p, hp, h⟩
    · left
      have : ∀ a ∈ exSix, a.hash = exHash 1 → a = exLike 5 1 2 300 := by
        intro a ha h
        simp only [exSix, List.mem_cons, List.not_mem_nil, or_false] at ha
        rcases ha with rfl | rfl | rfl | rfl | rfl | rfl
        · rfl
        all_goals exact absurd h (by decide)
      rw [this a (by rw [e1]; simp) h]
    · exact .inr ⟨(p, exSubs), List.mem_map.mpr ⟨p, hp, rfl⟩, h⟩
  · decide +kernel
  · exact ⟨_, List.mem_cons_self, by decide⟩

theorem exSix_order : AllTracked (2 * exForkCfg.reorgThreshold) exForkCfg.lastHash (headersOf exProducer (exSix.map (fun a => (a, exSubs)))) ∧
    NotBelow (2 * exForkCfg.reorgThreshold) ((exSix.map (fun a => (a, exSubs))).map (givenBlock exProducer)) := by
  refine C119_shallow (cfg := exForkCfg) (tree := (exSix.map (fun a => (a, exSubs))).map (givenBlock exProducer)) (d := 0) (D := 1) (w := 2)
    (shallow_of (fun b => if b.hash = exHash 5 then exHash 1 else b.parentHash) ?_ (by decide +kernel) (by decide +kernel)
      (by decide +kernel) (by decide +kernel)) (by decide) (by decide)
  intro b l e
  simp only [exSix, List.map_cons, List.cons.injEq] at e
  rw [← e.1]
  rfl

/-- Without eviction requests every execution can be continued to rest. -/
theorem rests {k0 : KSys} (hev : ∀ t, env.evict t = []) : ∃ k, KCausal C env o topic k0 k ∧ ∀ k', ¬ KSys.Step C env o topic k k' := by
  apply Classical.byContradiction
  intro hno
  have hno : ∀ k, KCausal C env o topic k0 k → ∃ k', KSys.Step C env o topic k k' := by
    intro k hk
    apply Classical.byContradiction
    intro h
    exact hno ⟨k, hk, fun k' hk' => h ⟨k', hk'⟩⟩
  let f : Nat → { k : KSys // KCausal C env o topic k0 k } := fun n => Nat.rec ⟨k0, .refl⟩
    (fun _ k => ⟨Classical.choose (hno k.1 k.2), .step k.2 (Classical.choose_spec (hno k.1 k.2)) (fun _ t _ n hn => by rw [hev] at hn; simp at hn)⟩) n
  exact k_no_endless (fun n => (f n).1) (fun n => Classical.choose_spec (hno (f n).1 (f n).2))

/-- C120: an execution that has come to rest exists, and its subscribers are at the last of the six blocks. -/
example : ∃ k0 k base chain, KSys.start exForkCfg 1 (fun _ => 0) (fun _ => exSixPart) = .ok k0 ∧ KCausal Avro.codec exEnv .plain (str "d") k0 k ∧
    (∀ k', ¬ KSys.Step Avro.codec exEnv .plain (str "d") k k') ∧ Heard exEnv k.sys ∧
    Replays exForkCfg.lastHash k.sys.omp.log base chain ∧ endOf base chain = exHash 8 := by
  have hst : ∃ k0, KSys.start exForkCfg 1 (fun _ => 0) (fun _ => exSixPart) = .ok k0 := ⟨_, rfl⟩
  obtain ⟨k0, h0⟩ := hst
  have hev : ∀ t, exEnv.evict t = [] := fun _ => rfl
  obtain ⟨k, hk, hstuck⟩ := rests (C := Avro.codec) (env := exEnv) (o := .plain) (topic := str "d") (k0 := k0) hev
  have hg : Heard exEnv k.sys := fun t _ n hn => by rw [hev] at hn; simp at hn
  obtain ⟨_, base, chain, top, g1, -, g3, g4, g5, -⟩ :=
    ((C120_published exSixLink Avro.codec_lawful exSix_order.1 exSix_order.2 h0 hk).2.2 hstuck).2 hg
  refine ⟨k0, k, base, chain, h0, hk, hstuck, hg, g1, ?_⟩
  rw [g3]
  obtain ⟨a, ha, rfl⟩ := List.mem_map.mp g4
  have h350 := g5 (exLike 9 8 7 350, exSubs) (List.mem_map.mpr ⟨exLike 9 8 7 350, by simp [exSix], rfl⟩)
  have : ∀ a ∈ exSix, (350 : Int) ≤ a.weight → a.hash = exHash 8 := by decide +kernel
  exact this a ha h350

end Verif
