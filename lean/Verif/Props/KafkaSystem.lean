import Verif.Model.KafkaSystem
import Verif.Props.System
import Verif.Props.Warmup
import Verif.Props.Kafka
import Verif.Props.Fleet
/-!
# C87: from the partitions of a Kafka topic to the subscribers
-/
namespace Verif
open Spec

variable {C : Codec} {env : Env} {o : MapOrder} {topic : GoStr}

/-- The messages of a chain in `np` partitions: correctly produced blocks that extend the last processed block; every message of theirs is in
some partition. Nothing else is there except heartbeats (empty keys) and pings. -/
structure Spec.KafkaFeed (C : Codec) (cfg : Config) (n : Int) (chain : List SentBlock) (np : Nat) (start : Nat → Int)
    (msgs : Nat → List RMsg) : Prop where
  correct : ∀ s ∈ chain, s.Correct C
  links : ChainOf cfg.lastHash n cfg.lastWeight chain
  hashes : (Hash.zero :: cfg.lastHash :: chain.map (·.args.hash)).Nodup
  whitelist : ∀ s ∈ chain, ∀ h, cfg.whitelist.get? (heightKey s.args.number) = some h → h = s.args.hash
  only : ∀ i, i < np → ∀ m ∈ msgs i, m.key = [] ∨ m.key.head? = some PingType ∨ ∃ s ∈ chain, Copy s.msgs m
  all : ∀ s ∈ chain, ∀ x ∈ s.msgs, ∃ i, i < np ∧ ∃ m ∈ msgs i, m.key = x.key ∧ Copy s.msgs m
  /-- every partition has a message at or after the offset its reader starts from (else all readers wait: C67) -/
  warm : ∀ i, i < np → ∃ m ∈ msgs i, start i ≤ m.offset

/-! ## Inside the consumer is a run of the two goroutines over the messages dispatched -/

/-- The messages dispatched so far. -/
def KSys.seen (k : KSys) : List RMsg := (k.w.out.take k.taken).map Prod.snd

/-- The identities in pings. -/
def pingsIn (ms : List RMsg) : List Hash := ms.flatMap (fun m => match m.key with
  | [] => []
  | t :: rest => if t = PingType then [bytesToHash rest] else [])

theorem dispatch_cases {wg : Nat} {key : Bytes} {a : Dispatch} {wg' : Nat} (h : KC.dispatch false topic wg key = .ok (a, wg'))
    (hr : ∀ t, a ≠ .reorgConsumer t) : (a = .process ↔ Ordinary ⟨key, [], 0, []⟩) ∧ a.beat = pingsIn [⟨key, [], 0, []⟩] := by
  unfold KC.dispatch at h
  cases key with
  | nil => cases h; simp [Ordinary, Dispatch.beat, pingsIn]
  | cons t rest =>
    simp only [] at h
    by_cases h1 : t = ReorgType
    · rw [if_pos h1] at h
      simp at h
      exact absurd h.1.symm (hr _)
    · rw [if_neg h1] at h
      by_cases h2 : t = PingType
      · rw [if_pos h2] at h
        cases h
        simp [Ordinary, Dispatch.beat, pingsIn, h2]
      · rw [if_neg h2] at h
        by_cases h3 : t = ReorgCompleteType
        · rw [if_pos h3] at h
          cases wg with
          | zero => simp at h
          | succ n =>
            cases h
            have : ReorgCompleteType ≠ PingType := by decide
            simp [Ordinary, Dispatch.beat, pingsIn, h3, this]
        · rw [if_neg h3] at h
          cases h
          simp [Ordinary, Dispatch.beat, pingsIn, h1, h2, h3]

theorem wstate_out {s t : WState} (h : WState.Step s t) : s.out <+: t.out := by
  cases h with
  | arrive => exact List.prefix_refl _
  | early => exact List.prefix_append _ _
  | pass => exact List.prefix_append _ _
  | forward => exact List.prefix_append _ _

/-- **C61**, in a running consumer: the counter is never above zero, so the first message that says a reorg is complete is one at which the dispatcher panics. -/
theorem C61_system {cfg : Config} {np : Nat} {start : Nat → Int} {msgs : Nat → List RMsg} {k0 k : KSys} (h0 : KSys.start cfg np start msgs = .ok k0)
    (h : KSys.Steps C env o topic k0 k) {i : Nat} {m : RMsg} (hm : k.w.out[k.taken]? = some (i, m)) (ht : m.key.head? = some ReorgCompleteType) :
    k.Faulting C env o topic := by
  have key : k.wg = 0 := by
    clear hm
    induction h with
    | refl =>
      unfold KSys.start at h0
      obtain ⟨s, _, h0⟩ := bind_ok.mp h0
      cases h0
      rfl
    | step _ hst ih =>
      cases hst with
      | part => exact ih
      | inner => exact ih
      | @take j m a wg _ _ _ hd hr =>
        show wg = 0
        rw [ih] at hd
        unfold KC.dispatch at hd
        cases hk : m.key with
        | nil => rw [hk] at hd; cases hd; rfl
        | cons t rest =>
          rw [hk] at hd
          simp only [Bool.false_eq_true, if_false] at hd
          split at hd
          · cases hd; rfl
          · split at hd
            · cases hd; rfl
            · split at hd <;> cases hd
              rfl
  refine .inl ⟨i, m, .panic, hm, ?_⟩
  rw [key]
  cases hk : m.key with
  | nil => rw [hk] at ht; cases ht
  | cons t rest =>
    rw [hk] at ht
    cases ht
    rfl

/-- What is known of a reachable state. -/
structure KInv (C : Codec) (env : Env) (o : MapOrder) (cfg : Config) (np : Nat) (start : Nat → Int) (msgs : Nat → List RMsg) (k : KSys) : Prop where
  w : WState.Steps (.init np start msgs) k.w
  taken : k.taken ≤ k.w.out.length
  beats : k.beats = pingsIn k.seen
  run : ∃ s0, Sys.start cfg ((k.seen.filter (fun m => Ordinary m)).map Call.msg) = .ok s0 ∧ Sys.Steps C env o s0 k.sys

theorem kinv_steps {cfg : Config} {np : Nat} {start : Nat → Int} {msgs : Nat → List RMsg} {k0 k : KSys} (h0 : KSys.start cfg np start msgs = .ok k0)
    (h : KSys.Steps C env o topic k0 k) : KInv C env o cfg np start msgs k := by
  induction h with
  | refl =>
    unfold KSys.start at h0
    obtain ⟨s, h1, h0⟩ := bind_ok.mp h0
    cases h0
    exact ⟨.refl, Nat.zero_le _, rfl, ⟨s, h1, .refl⟩⟩
  | step hss hst ih =>
    rename_i k1 k2
    cases hst with
    | part hw hroom =>
      rename_i w
      obtain ⟨t, ht⟩ := wstate_out hw
      have hseen : (w.out.take k1.taken).map Prod.snd = k1.seen := by
        unfold KSys.seen
        rw [← ht, List.take_append_of_le_length ih.taken]
      refine ⟨.tail ih.w hw, by rw [← ht]; simp; have := ih.taken; omega, ?_, ?_⟩
      · show k1.beats = pingsIn ((w.out.take k1.taken).map Prod.snd)
        rw [hseen]; exact ih.beats
      · show ∃ s0, Sys.start cfg ((((w.out.take k1.taken).map Prod.snd).filter (fun m => Ordinary m)).map Call.msg) = .ok s0 ∧ _
        rw [hseen]; exact ih.run
    | take ht hout hm hd hr =>
      rename_i i m a wg
      have hlt : k1.taken < k1.w.out.length := by
        rw [List.getElem?_eq_some_iff] at hm
        exact hm.1
      have hseen : (k1.w.out.take (k1.taken + 1)).map Prod.snd = k1.seen ++ [m] := by
        unfold KSys.seen
        rw [List.take_add_one, hm]
        simp
      obtain ⟨c1, c2⟩ := dispatch_cases hd hr
      have hord : Ordinary ⟨m.key, [], 0, []⟩ ↔ Ordinary m := Iff.rfl
      obtain ⟨s0, r1, r2⟩ := ih.run
      refine ⟨ih.w, hlt, ?_, ?_⟩
      · show k1.beats ++ a.beat = pingsIn ((k1.w.out.take (k1.taken + 1)).map Prod.snd)
        rw [hseen, c2, ih.beats]
        unfold pingsIn
        rw [List.flatMap_append]
        simp
      · show ∃ s0, Sys.start cfg ((((k1.w.out.take (k1.taken + 1)).map Prod.snd).filter (fun m => Ordinary m)).map Call.msg) = .ok s0 ∧ _
        rw [hseen, List.filter_append, List.map_append]
        by_cases hp : a = .process
        · have hm' : Ordinary m := hord.mp (c1.mp hp)
          refine ⟨_, start_more r1, ?_⟩
          simp only [hp, if_true]
          have := r2.more [Call.msg m]
          have e : k1.sys.more [Call.msg m] = { k1.sys with todo := [.msg m] } := by simp [Sys.more, ht]
          rw [e] at this
          simpa [hm'] using this
        · have hm' : ¬ Ordinary m := fun x => hp (c1.mpr (hord.mpr x))
          refine ⟨s0, ?_, ?_⟩
          · simpa [hm'] using r1
          · simp only [hp, if_false]; exact r2
    | inner hs =>
      obtain ⟨s0, r1, r2⟩ := ih.run
      exact ⟨ih.w, ih.taken, ih.beats, ⟨s0, r1, .step r2 hs⟩⟩

/-! ## There are no endless executions -/

/-- What is left to do. -/
def KSys.work (k : KSys) : Nat × Nat × Nat × Nat := (k.w.left, k.w.out.length - k.taken, k.sys.work)

theorem kstep_less {k k' : KSys} (h : KSys.Step C env o topic k k') :
    Prod.Lex (· < ·) (Prod.Lex (· < ·) (Prod.Lex (· < ·) (· < ·))) k'.work k.work := by
  cases h with
  | part hw _ => exact .left _ _ (C67_progress hw)
  | take ht hout hm hd hr =>
    have hlt : k.taken < k.w.out.length := by
      rw [List.getElem?_eq_some_iff] at hm
      exact hm.1
    exact .right _ (.left _ _ (by show k.w.out.length - (k.taken + 1) < k.w.out.length - k.taken; omega))
  | inner hs => exact .right _ (.right _ hs.less)

theorem k_no_endless (f : Nat → KSys) (h : ∀ n, KSys.Step C env o topic (f n) (f (n + 1))) : False := by
  have wf : WellFounded (Prod.Lex (α := Nat) (β := Nat × Nat × Nat) (· < ·) (Prod.Lex (· < ·) (Prod.Lex (· < ·) (· < ·)))) :=
    (Prod.lex ⟨_, Nat.lt_wfRel.wf⟩ (Prod.lex ⟨_, Nat.lt_wfRel.wf⟩ (Prod.lex ⟨_, Nat.lt_wfRel.wf⟩ ⟨_, Nat.lt_wfRel.wf⟩))).wf
  have : ∀ x, Acc (Prod.Lex (α := Nat) (β := Nat × Nat × Nat) (· < ·) (Prod.Lex (· < ·) (Prod.Lex (· < ·) (· < ·)))) x →
      ∀ n, (f n).work = x → False := by
    intro x hx
    induction hx with
    | intro x _ ih =>
      rintro n rfl
      exact ih _ (kstep_less (h n)) (n + 1) rfl
  exact this _ (wf.apply _) 0 rfl

section
variable {cfg : Config} {n : Int} {chain : List SentBlock} {np : Nat} {start : Nat → Int} {msgs : Nat → List RMsg}

theorem forwarded_of_mem {out : List (Nat × RMsg)} {i : Nat} {m : RMsg} (h : (i, m) ∈ out) : m ∈ forwarded out i :=
  List.mem_map.mpr ⟨(i, m), List.mem_filter.mpr ⟨h, by simp⟩, rfl⟩

/-- Whatever is on the channel is a message of some partition. -/
theorem KInv.source {k : KSys} (h : KInv C env o cfg np start msgs k) {i : Nat} {m : RMsg} (hm : (i, m) ∈ k.w.out) : i < np ∧ m ∈ msgs i := by
  have hi : i < np := by
    apply Classical.byContradiction
    intro hn
    have := (winv_steps h.w).other i (by omega)
    have hx := forwarded_of_mem hm
    rw [this] at hx
    simp at hx
  exact ⟨hi, (C67_prefix h.w i).subset (forwarded_of_mem hm)⟩

theorem mem_seen {k : KSys} {m : RMsg} (h : m ∈ k.seen) : ∃ i, (i, m) ∈ k.w.out := by
  obtain ⟨⟨i, x⟩, hx, rfl⟩ := List.mem_map.mp h
  exact ⟨i, (List.take_subset _ _) hx⟩

theorem copy_ordinary (hC : C.Lawful) {s : SentBlock} (hs : s.Correct C) {m : RMsg} (h : Copy s.msgs m) : Ordinary m := by
  obtain ⟨x, hx, h1, _⟩ := h
  obtain ⟨b, hb⟩ := bridge hC hs.1 hs.2
  obtain ⟨i, hi, hmine⟩ := hb.mine x hx
  unfold Ordinary
  rw [h1, hi]
  cases hmine <;> simp [keyOf, getKey, ReorgType, BatchType, BatchMsgType, BatchDeleteMsgType, SubBatchHeaderType, SubBatchMsgType, PingType, ReorgCompleteType]

/-- The messages passed on are those of a chain. -/
theorem Spec.KafkaFeed.inside (h : KafkaFeed C cfg n chain np start msgs) {k : KSys} (hk : KInv C env o cfg np start msgs k) :
    EndToEnd C cfg n chain (k.seen.filter (fun m => Ordinary m)) := by
  refine ⟨h.correct, h.links, h.hashes, h.whitelist, ?_⟩
  intro m hm
  obtain ⟨hm, ho⟩ := List.mem_filter.mp hm
  have ho : Ordinary m := by simpa using ho
  obtain ⟨i, hi⟩ := mem_seen hm
  obtain ⟨h1, h2⟩ := hk.source hi
  rcases h.only i h1 m h2 with e | e | e
  · exact absurd e ho.1
  · exact absurd e ho.2.2.1
  · exact e

theorem Spec.KafkaFeed.calm (h : KafkaFeed C cfg n chain np start msgs) (hC : C.Lawful) {k : KSys} (hk : KInv C env o cfg np start msgs k)
    {i : Nat} {m : RMsg} (hm : (i, m) ∈ k.w.out) (wg : Nat) :
    ∃ a, KC.dispatch false topic wg m.key = .ok (a, wg) ∧ ∀ t, a ≠ .reorgConsumer t := by
  obtain ⟨h1, h2⟩ := hk.source hm
  rcases h.only i h1 m h2 with e | e | ⟨s, hs, e⟩
  · exact ⟨.heartbeatGauge, by rw [e]; rfl, by simp⟩
  · cases hkey : m.key with
    | nil => rw [hkey] at e; simp at e
    | cons t rest =>
      rw [hkey] at e
      simp only [List.head?_cons, Option.some.injEq] at e
      subst e
      exact ⟨.ping (bytesToHash rest), by simp [KC.dispatch, show PingType ≠ ReorgType by decide], by simp⟩
  · have ho := copy_ordinary hC (h.correct s hs) e
    cases hkey : m.key with
    | nil => exact absurd hkey ho.1
    | cons t rest =>
      obtain ⟨_, o1, o2, o3⟩ := ho
      rw [hkey] at o1 o2 o3
      simp only [List.head?_cons, ne_eq, Option.some.injEq] at o1 o2 o3
      exact ⟨.process, by simp [KC.dispatch, o1, o2, o3], by simp⟩

/-- **C87**, no faults and no deadlock: no goroutine of a Kafka consumer is ever about to fault, there are no endless executions, and one that
cannot be continued has forwarded, dispatched and handled everything. -/
theorem C87_progress (h : KafkaFeed C cfg n chain np start msgs) (hC : C.Lawful) {k0 : KSys} (h0 : KSys.start cfg np start msgs = .ok k0) :
    (∀ f : Nat → KSys, ¬ ∀ n, KSys.Step C env o topic (f n) (f (n + 1))) ∧
    ∀ k, KSys.Steps C env o topic k0 k → ¬ k.Faulting C env o topic ∧
      ((∃ k', KSys.Step C env o topic k k') ∨
        k.sys.Drained ∧ k.taken = k.w.out.length ∧ ∀ i, i < np → forwarded k.w.out i = msgs i) := by
  refine ⟨fun f hf => k_no_endless f hf, ?_⟩
  intro k hk
  have hv := kinv_steps h0 hk
  obtain ⟨s0, r1, r2⟩ := hv.run
  have hnf := (C44_no_fault (h.inside hv) hC r1 r2).1
  refine ⟨?_, ?_⟩
  · rintro (⟨i, m, f, hm, hf⟩ | hf)
    · obtain ⟨a, ha, _⟩ := h.calm (topic := topic) hC hv (List.mem_of_getElem? hm) k.wg
      rw [ha] at hf
      simp at hf
    · exact hnf hf
  · by_cases hd : k.sys.Drained
    · by_cases htk : k.taken < k.w.out.length
      · left
        obtain ⟨a, ha, hr⟩ := h.calm (topic := topic) hC hv (List.getElem_mem htk) k.wg
        exact ⟨_, .take hd.1 hd.2.1 (List.getElem?_eq_getElem htk) ha hr⟩
      · have htk : k.taken = k.w.out.length := by have := hv.taken; omega
        by_cases hw : ∃ t, WState.Step k.w t
        · left
          obtain ⟨t, ht⟩ := hw
          refine ⟨_, .part ht ?_⟩
          rw [htk]
          unfold messagesCap
          cases ht <;> simp [WState.upd]
        · right
          exact ⟨hd, htk, fun i hi => C67_all_partial hv.w h.warm (fun t ht => hw ⟨t, ht⟩) i hi⟩
    · left
      obtain ⟨s, hs⟩ := (k.sys.progress (C := C) (env := env) (o := o) hd).resolve_right hnf
      exact ⟨_, .inner hs⟩

/-- **C87**: when a Kafka consumer has come to rest, under any schedule of its goroutines, the subscribers have seen each block of the chain exactly once,
in chain order, each exactly as produced, and nothing removed. The messages may be spread over the partitions in any way, in any order, any
number of times, between heartbeats and pings. Every ping was counted. -/
theorem C87_delivered (h : KafkaFeed C cfg n chain np start msgs) (hC : C.Lawful) {k0 k : KSys} (h0 : KSys.start cfg np start msgs = .ok k0)
    (hk : KSys.Steps C env o topic k0 k) (hstuck : ∀ k', ¬ KSys.Step C env o topic k k') (hg : Genuine env k.sys) :
    (∀ x ∈ k.sys.omp.log, (∃ a, x = .update a []) ∨ ∃ sb ∈ chain, x = .evictOlder sb.args.number) ∧
    (k.sys.omp.log.flatMap addedBy).length = chain.length ∧
    (∀ x ∈ chain.zip (k.sys.omp.log.flatMap addedBy), Exact cfg.tracked x.1.schema x.1.args x.1.subs x.2) ∧
    ∀ i, i < np → ∀ m ∈ msgs i, ∀ rest, m.key = PingType :: rest → bytesToHash rest ∈ k.beats := by
  have hv := kinv_steps h0 hk
  obtain ⟨s0, r1, r2⟩ := hv.run
  obtain ⟨hd, htk, hall⟩ := (((C87_progress (env := env) (o := o) (topic := topic) h hC h0).2 k hk).2).resolve_left (fun ⟨k', hk'⟩ => hstuck k' hk')
  have hseen : ∀ i, i < np → ∀ m ∈ msgs i, m ∈ k.seen := by
    intro i hi m hm
    rw [← hall i hi] at hm
    obtain ⟨⟨j, x⟩, hx, rfl⟩ := List.mem_map.mp hm
    unfold KSys.seen
    rw [htk, List.take_length]
    exact List.mem_map.mpr ⟨(j, x), (List.mem_filter.mp hx).1, rfl⟩
  have ha : ∀ s ∈ chain, AllArrive s.msgs (k.seen.filter (fun m => Ordinary m)) := by
    intro s hs x hx
    obtain ⟨i, hi, m, hm, e1, e2⟩ := h.all s hs x hx
    refine ⟨m, List.mem_filter.mpr ⟨hseen i hi m hm, ?_⟩, e1, e2⟩
    simpa using copy_ordinary hC (h.correct s hs) e2
  obtain ⟨g1, g2, g3⟩ := C44_end_to_end (h.inside hv) hC ha r1 r2 hd hg
  refine ⟨g1, g2, g3, ?_⟩
  intro i hi m hm rest e
  rw [hv.beats]
  exact List.mem_flatMap.mpr ⟨m, hseen i hi m hm, by simp [e]⟩

end

/-! ## With the producer -/

/-- A producer sends the sub-batches `l` of a block, every call returning nil; in between its watchers may see headers it sent before. -/
inductive Spec.SubsSent (C : Codec) (E : ErrSched) (subs : Hash → SubArgs) (own : Hash → Prop) (kp : KP) : List Hash → KP → Prop
  | nil : SubsSent C E subs own kp [] kp
  | seen {l kp1 h} : SubsSent C E subs own kp l kp1 → own h → SubsSent C E subs own kp l (kp1.observe h)
  | sub {l kp1 kp2 i o o'} : SubsSent C E subs own kp l kp1 → i ∉ l →
      kp1.sendBatch C E o o' i (subs i).deletes (subs i).updates = (kp2, none) → SubsSent C E subs own kp (l ++ [i]) kp2

/-- A producer is given one block after the other, each with all its sub-batches; every call returns nil. -/
inductive Spec.Publishes (C : Codec) (E : ErrSched) (kp : KP) : List (BlockArgs × (Hash → SubArgs)) → KP → Prop
  | nil : Publishes C E kp [] kp
  | seen {bs kp1 h} : Publishes C E kp bs kp1 → (∃ b ∈ bs, b.1.hash = h) → Publishes C E kp bs (kp1.observe h)
  | block {bs kp1 kp2 kp3 a subs l o o'} : Publishes C E kp bs kp1 →
      kp1.addBlock C E o o' a.number a.hash a.parentHash a.weight a.updates a.deletes a.batches = (kp2, none) →
      SubsSent C E subs (fun h => ∃ b ∈ bs ++ [(a, subs)], b.1.hash = h) kp2 l kp3 →
      (∀ x, x ∈ l ↔ ∃ path, a.batches.get? path = some x) → Publishes C E kp (bs ++ [(a, subs)]) kp3

variable {E : ErrSched}

theorem handed_bundle {o : MapOrder} {kp kp' : KP} {tm : GMap GoStr (List Msg)} (ht : kp.reorgTopic = [])
    (h : kp.emitBundle E o tm = (kp', none)) : SameKP kp kp' ∧ ∃ L, kp'.sent = kp.sent ++ L ∧ ∀ m, m ∈ L.map Prod.snd ↔ m ∈ flat tm := by
  obtain ⟨L, hL, hsame, pre, post, e1, e2, e3⟩ := emitBundle_handed E o kp ht tm
  rw [h] at hsame e2 e3
  have hpost : post = [] := e3.mp rfl
  rw [hpost, List.append_nil] at e1
  subst e1
  refine ⟨hsame, L, e2, fun m => ?_⟩
  rw [← listing_flat hL m]
  simp [List.mem_map]

theorem sendBatch_schema {o : MapOrder} {p : Producer} {i : Hash} {d : List GoStr} {u : GMap GoStr Bytes} :
    (sendBatch C o p i d u).1.schema = p.schema := by
  unfold sendBatch
  split <;> rfl

/-- What is known after the sub-batches `l`. -/
structure SubsKnown (C : Codec) (subs : Hash → SubArgs) (own : Hash → Prop) (kp1 : KP) (l : List Hash) (kp2 : KP) : Prop where
  topic : kp2.reorgTopic = []
  schema : kp2.dp.schema = kp1.dp.schema
  recent : ∀ h ∈ kp2.recentHashes.items, h ∈ kp1.recentHashes.items ∨ own h
  open' : ∀ x, x ∉ l → kp2.dp.pendingBatches.get? x = kp1.dp.pendingBatches.get? x
  sent : ∃ S : Hash → List Msg, (∀ x ∈ l, ∃ o q q' tm, q.pendingBatches.get? x = kp1.dp.pendingBatches.get? x ∧
    sendBatch C o q x (subs x).deletes (subs x).updates = (q', .ok tm) ∧ S x = flat tm) ∧
    ∃ L, kp2.sent = kp1.sent ++ L ∧ ∀ m, m ∈ L.map Prod.snd ↔ ∃ x ∈ l, m ∈ S x

theorem subs_known {subs : Hash → SubArgs} {own : Hash → Prop} {kp1 kp2 : KP} {l : List Hash} (h : SubsSent C E subs own kp1 l kp2)
    (ht : kp1.reorgTopic = []) (hp : ∀ x, x ∈ l → kp1.dp.pendingBatches.get? x ≠ none) : SubsKnown C subs own kp1 l kp2 := by
  induction h with
  | nil => exact ⟨ht, rfl, fun h hh => .inl hh, fun _ _ => rfl, ⟨fun _ => [], by simp, [], by simp, by simp⟩⟩
  | seen _ ho ih =>
    have ih := ih hp
    refine ⟨ih.topic, ih.schema, ?_, ih.open', ih.sent⟩
    intro x hx
    rcases LRU.mem_of_mem_add hx with e | hx
    · exact .inr (e ▸ ho)
    · exact ih.recent x hx
  | @sub l kp1' kp2 i o o' _ hl hcall ih =>
    have ih := ih (fun x hx => hp x (by simp [hx]))
    have hop := ih.open' i hl
    have hne : kp1'.dp.pendingBatches.get? i ≠ none := by rw [hop]; exact hp i (by simp)
    have hdp : kp2.dp = (Verif.sendBatch C o kp1'.dp i (subs i).deletes (subs i).updates).1 := by
      have := sendBatch_dp (C := C) (E := E) (o := o) (o' := o') (kp := kp1') (i := i) (d := (subs i).deletes) (u := (subs i).updates)
      rw [hcall] at this; exact this
    unfold KP.sendBatch at hcall
    generalize hr : Verif.sendBatch C o kp1'.dp i (subs i).deletes (subs i).updates = r at hcall
    obtain ⟨dp, r⟩ := r
    cases r with
    | error e =>
      exfalso
      have := (sendBatch_ok_iff (C := C) (o := o) (p := kp1'.dp) (id := i) (d := (subs i).deletes) (u := (subs i).updates)).mpr
        (by rw [Option.isSome_iff_ne_none]; exact hne)
      rw [hr] at this; simp at this
    | ok tm =>
      simp only [] at hcall
      obtain ⟨hsame, L2, hL2, hh⟩ := handed_bundle (kp := { kp1' with dp := dp }) ih.topic hcall
      obtain ⟨S, hS1, L, hL, hS2⟩ := ih.sent
      refine ⟨hsame.topic.trans ih.topic, by rw [hdp, sendBatch_schema]; exact ih.schema, ?_, ?_, ?_⟩
      · rw [hsame.recent]; exact ih.recent
      · intro x hx
        simp only [List.mem_append, List.mem_singleton, not_or] at hx
        rw [hdp, sendBatch_pend, if_neg (fun e => hx.2 e.symm)]
        exact ih.open' x hx.1
      · refine ⟨fun x => if x = i then flat tm else S x, ?_, ?_⟩
        · intro x hx
          by_cases hxi : x = i
          · subst hxi
            exact ⟨o, kp1'.dp, dp, tm, hop, hr, by simp⟩
          · obtain ⟨o2, q, q', tm2, f1, f2, f3⟩ := hS1 x (by simpa [hxi] using hx)
            exact ⟨o2, q, q', tm2, f1, f2, by simp [hxi, f3]⟩
        · refine ⟨L ++ L2, by rw [hL2]; show kp1'.sent ++ L2 = _; rw [hL, List.append_assoc], fun m => ?_⟩
          rw [List.map_append, List.mem_append, hh m, hS2 m]
          constructor
          · rintro (⟨x, hx, hm⟩ | h)
            · have hxi : x ≠ i := fun e => hl (e ▸ hx)
              exact ⟨x, by simp [hx], by simpa [hxi] using hm⟩
            · exact ⟨i, by simp, by simpa using h⟩
          · rintro ⟨x, hx, hm⟩
            by_cases hxi : x = i
            · subst hxi; exact .inr (by simpa using hm)
            · exact .inl ⟨x, by simpa [hxi] using hx, by simpa [hxi] using hm⟩

/-- What a producer has sent after publishing blocks with different hashes: the messages of correctly produced blocks one after the other,
nothing else. -/
theorem publishes_order {dp : Producer} {bs : List (BlockArgs × (Hash → SubArgs))} {kp : KP} (h : Publishes C E (newKP dp) bs kp)
    (hd : (bs.map (·.1.hash)).Nodup) :
    kp.reorgTopic = [] ∧ kp.dp.schema = dp.schema ∧ (∀ x ∈ kp.recentHashes.items, ∃ b ∈ bs, b.1.hash = x) ∧
    ∃ chain : List SentBlock, chain.map (fun s => (s.args, s.subs)) = bs ∧
      (∀ s ∈ chain, s.schema = dp.schema ∧ Produced C s.schema s.args s.subs s.msgs) ∧
      kp.sent.map Prod.snd = chain.flatMap (·.msgs) := by
  induction h with
  | nil => exact ⟨rfl, rfl, by simp [newKP, LRU.new], [], rfl, by simp, by simp [newKP]⟩
  | seen _ ho ih =>
    obtain ⟨h1, h2, h3, h4⟩ := ih hd
    refine ⟨h1, h2, ?_, h4⟩
    intro x hx
    rcases LRU.mem_of_mem_add hx with e | hx
    · exact e ▸ ho
    · exact h3 x hx
  | @block bs kp kp1 kp2 a subs l o o' _ h1 hsub hl ih =>
    rw [List.map_append, List.nodup_append] at hd
    obtain ⟨i1, i2, i3, chain, i4, i5, i6⟩ := ih hd.1
    have hn : ¬ kp.recentHashes.contains a.hash = true := by
      rw [LRU.contains_iff]
      intro hx
      obtain ⟨b, hb, e⟩ := i3 _ hx
      exact hd.2.2 b.1.hash (List.mem_map.mpr ⟨b, hb, rfl⟩) a.hash (by simp) e
    have hdp := addBlock_dp (C := C) (E := E) (o := o) (o' := o') (kp := kp) (a := a) hn
    rw [h1] at hdp
    simp only [] at hdp
    unfold KP.addBlock at h1
    rw [if_neg hn] at h1
    change (match addBlock' C o kp.dp a with
      | (dp, .error e) => ({ kp with dp := dp }, some e)
      | (dp, .ok msgs) => KP.emitBundle E o' { kp with dp := dp } msgs) = _ at h1
    generalize hb : addBlock' C o kp.dp a = r at h1 hdp
    obtain ⟨dp', r⟩ := r
    cases r with
    | error e => simp at h1
    | ok tm =>
      simp only [] at h1 hdp
      obtain ⟨hsame, L1, hL1, hh⟩ := handed_bundle (kp := { kp with dp := dp' }) i1 h1
      obtain ⟨b, -, -, -, -, -, -, hsch, -, hreg, -⟩ := addBlock_ok hb
      have hpend : ∀ x, x ∈ l → kp1.dp.pendingBatches.get? x ≠ none := by
        intro x hx
        obtain ⟨path, hx⟩ := (hl x).mp hx
        obtain ⟨k, _, hk⟩ := hreg x (List.mem_map.mpr ⟨(path, x), (GMap.get?_eq_some_iff _).mp hx, rfl⟩)
        rw [hdp, hk]; simp
      have hk := subs_known hsub (hsame.topic.trans i1) hpend
      obtain ⟨S, hS1, L2, hL2, hS2⟩ := hk.sent
      have hsch' : kp1.dp.schema = dp.schema := by rw [hdp, hsch, i2]
      refine ⟨hk.topic, hk.schema.trans hsch', ?_, chain ++ [⟨dp.schema, a, subs, (L1 ++ L2).map Prod.snd⟩], ?_, ?_, ?_⟩
      · intro x hx
        rcases hk.recent x hx with hx | hx
        · rw [hsame.recent] at hx
          obtain ⟨b, hb, e⟩ := i3 x hx
          exact ⟨b, by simp [hb], e⟩
        · exact hx
      · rw [List.map_append, i4]; rfl
      · intro s hs
        rcases List.mem_append.mp hs with hs | hs
        · exact i5 s hs
        · simp only [List.mem_singleton] at hs
          subst hs
          refine ⟨rfl, Spec.SentBy.produced ⟨o, kp.dp, dp', tm, S, i2, hb, ?_, ?_⟩⟩
          · intro path id hid
            obtain ⟨o2, q, q', tm', f1, f2, f3⟩ := hS1 id ((hl id).mpr ⟨path, hid⟩)
            exact ⟨o2, q, q', tm', by rw [f1, hdp], f2, f3⟩
          · intro m
            simp only [List.map_append, List.mem_append, hh, hS2]
            refine or_congr Iff.rfl ⟨?_, ?_⟩
            · rintro ⟨x, hx, hm⟩
              obtain ⟨path, hp⟩ := (hl x).mp hx
              exact ⟨path, x, hp, hm⟩
            · rintro ⟨path, id, hid, hx⟩
              exact ⟨id, (hl id).mpr ⟨path, hid⟩, hx⟩
      · rw [hL2, hL1, List.append_assoc, List.map_append, List.flatMap_append]
        show kp.sent.map Prod.snd ++ _ = _
        rw [i6]; simp

theorem publishes {dp : Producer} {bs : List (BlockArgs × (Hash → SubArgs))} {kp : KP} (h : Publishes C E (newKP dp) bs kp)
    (hd : (bs.map (·.1.hash)).Nodup) :
    kp.reorgTopic = [] ∧ kp.dp.schema = dp.schema ∧ (∀ x ∈ kp.recentHashes.items, ∃ b ∈ bs, b.1.hash = x) ∧
    ∃ chain : List SentBlock, chain.map (fun s => (s.args, s.subs)) = bs ∧
      (∀ s ∈ chain, s.schema = dp.schema ∧ Produced C s.schema s.args s.subs s.msgs) ∧
      ∀ m, HandedTo kp m ↔ ∃ s ∈ chain, m ∈ s.msgs := by
  obtain ⟨h1, h2, h3, chain, h4, h5, h6⟩ := publishes_order h hd
  refine ⟨h1, h2, h3, chain, h4, h5, fun m => ?_⟩
  have : HandedTo kp m ↔ m ∈ kp.sent.map Prod.snd := by simp [HandedTo]
  rw [this, h6, List.mem_flatMap]

/-- A block given to a producer. -/
def givenBlock (dp : Producer) (b : BlockArgs × (Hash → SubArgs)) : SentBlock := ⟨dp.schema, b.1, b.2, []⟩

/-- From a Kafka producer to the partitions of a Kafka consumer: the blocks `bs` have different hashes and extend the last processed block of the
consumer. Every message handed over by the producer is in some partition (once or more often), and nothing else is there except
heartbeats and pings. -/
structure Spec.KafkaLink (C : Codec) (E : ErrSched) (dp : Producer) (bs : List (BlockArgs × (Hash → SubArgs))) (kp : KP) (cfg : Config) (n : Int)
    (np : Nat) (start : Nat → Int) (msgs : Nat → List RMsg) : Prop where
  publishes : Publishes C E (newKP dp) bs kp
  wf : ∀ b ∈ bs, WellFormed dp.schema b.1 b.2
  links : ChainOf cfg.lastHash n cfg.lastWeight (bs.map (givenBlock dp))
  hashes : (Hash.zero :: cfg.lastHash :: bs.map (·.1.hash)).Nodup
  whitelist : ∀ b ∈ bs, ∀ h, cfg.whitelist.get? (heightKey b.1.number) = some h → h = b.1.hash
  stored : ∀ topic m, (topic, m) ∈ kp.sent → ∃ i, i < np ∧ ∃ r ∈ msgs i, r.key = m.key ∧ r.value = m.value
  only : ∀ i, i < np → ∀ r ∈ msgs i, r.key = [] ∨ r.key.head? = some PingType ∨ ∃ topic m, (topic, m) ∈ kp.sent ∧ r.key = m.key ∧ r.value = m.value
  warm : ∀ i, i < np → ∃ m ∈ msgs i, start i ≤ m.offset

section
variable {dp : Producer} {bs : List (BlockArgs × (Hash → SubArgs))} {kp : KP} {cfg : Config} {n : Int} {np : Nat} {start : Nat → Int}
  {msgs : Nat → List RMsg}

theorem chainOf_args {h : Hash} {n w : Int} {c d : List SentBlock} (e : c.map (·.args) = d.map (·.args)) (hc : ChainOf h n w c) : ChainOf h n w d := by
  induction c generalizing h n w d with
  | nil => cases d with
    | nil => trivial
    | cons x d => simp at e
  | cons x c ih =>
    cases d with
    | nil => simp at e
    | cons y d =>
      simp only [List.map_cons, List.cons.injEq] at e
      obtain ⟨h1, h2, h3, h4⟩ := hc
      rw [e.1] at h1 h2 h3 h4
      exact ⟨h1, h2, h3, ih e.2 h4⟩

theorem Spec.KafkaLink.feed (h : KafkaLink C E dp bs kp cfg n np start msgs) :
    ∃ chain : List SentBlock, chain.map (fun s => (s.args, s.subs)) = bs ∧ (∀ s ∈ chain, s.schema = dp.schema) ∧
      KafkaFeed C cfg n chain np start msgs := by
  obtain ⟨_, _, _, chain, h1, h2, h3⟩ := Verif.publishes h.publishes (List.nodup_cons.mp (List.nodup_cons.mp h.hashes).2).2
  have hmem : ∀ s ∈ chain, (s.args, s.subs) ∈ bs := fun s hs => by rw [← h1]; exact List.mem_map.mpr ⟨s, hs, rfl⟩
  have hargs : (bs.map (givenBlock dp)).map (·.args) = chain.map (·.args) := by
    rw [← h1]; simp [givenBlock, Function.comp_def]
  have hhash : bs.map (·.1.hash) = chain.map (·.args.hash) := by
    rw [← h1]; simp [Function.comp_def]
  refine ⟨chain, h1, fun s hs => (h2 s hs).1, ?_, chainOf_args hargs h.links, by rw [← hhash]; exact h.hashes, ?_, ?_, ?_, h.warm⟩
  · intro s hs
    refine ⟨(h2 s hs).2, ?_⟩
    rw [(h2 s hs).1]
    exact h.wf _ (hmem s hs)
  · intro s hs x hx
    exact h.whitelist _ (hmem s hs) x hx
  · intro i hi r hr
    rcases h.only i hi r hr with e | e | ⟨t, m, hm, e1, e2⟩
    · exact .inl e
    · exact .inr (.inl e)
    · obtain ⟨s, hs, hms⟩ := (h3 m).mp ⟨t, hm⟩
      exact .inr (.inr ⟨s, hs, m, hms, e1, e2⟩)
  · intro s hs x hx
    obtain ⟨t, ht⟩ := (h3 x).mpr ⟨s, hs, hx⟩
    obtain ⟨i, hi, m, hm, e1, e2⟩ := h.stored t x ht
    exact ⟨i, hi, m, hm, e1, x, hx, e1, e2⟩

/-- **C87**, from end to end: blocks that a Kafka producer was given, each call returning nil, are what the subscribers of a Kafka consumer have seen
when it has come to rest: each exactly once, in order, with exactly the keys and values the filter lets through; no goroutine faults or
waits for ever. -/
theorem C87_published (h : KafkaLink C E dp bs kp cfg n np start msgs) (hC : C.Lawful) {k0 k : KSys} (h0 : KSys.start cfg np start msgs = .ok k0)
    (hk : KSys.Steps C env o topic k0 k) :
    ¬ k.Faulting C env o topic ∧ ((∀ k', ¬ KSys.Step C env o topic k k') → Genuine env k.sys →
      (∀ x ∈ k.sys.omp.log, (∃ a, x = .update a []) ∨ ∃ b ∈ bs, x = .evictOlder b.1.number) ∧
      (k.sys.omp.log.flatMap addedBy).length = bs.length ∧
      ∀ x ∈ bs.zip (k.sys.omp.log.flatMap addedBy), Exact cfg.tracked dp.schema x.1.1 x.1.2 x.2) := by
  obtain ⟨chain, h1, h2, hf⟩ := h.feed
  refine ⟨((C87_progress (env := env) (o := o) (topic := topic) hf hC h0).2 k hk).1, ?_⟩
  intro hstuck hg
  obtain ⟨g1, g2, g3, _⟩ := C87_delivered hf hC h0 hk hstuck hg
  refine ⟨?_, ?_, ?_⟩
  · intro x hx
    rcases g1 x hx with e | ⟨sb, hsb, e⟩
    · exact .inl e
    · exact .inr ⟨(sb.args, sb.subs), by rw [← h1]; exact List.mem_map.mpr ⟨sb, hsb, rfl⟩, e⟩
  · rw [g2, ← h1]; simp
  · intro x hx
    rw [← h1, List.zip_map_left] at hx
    obtain ⟨y, hy, rfl⟩ := List.mem_map.mp hx
    have := g3 y hy
    rw [h2 y.1 (List.of_mem_zip hy).1] at this
    exact this

end

/-! ## Example: two blocks, two partitions -/

/-- One block with its sub-batch. -/
def exPublish (kp : KP) (a : BlockArgs) : KP :=
  ((kp.addBlock Avro.codec (fun _ => none) .plain .plain a.number a.hash a.parentHash a.weight a.updates a.deletes a.batches).1.sendBatch
    Avro.codec (fun _ => none) .plain .plain (exHash 9) (exSubs (exHash 9)).deletes (exSubs (exHash 9)).updates).1

/-- A producer that was given two blocks and has seen the header of the first. -/
def exKP2 : KP := exPublish ((exPublish (newKP exProducer) exBlock).observe (exHash 1)) exNext

theorem exPublishes : Publishes Avro.codec (fun _ => none) (newKP exProducer) ([(exBlock, exSubs)] ++ [(exNext, exSubs)]) exKP2 := by
  have pair : ∀ {α : Type} {r : α × Option Err}, r.2.isNone = true → r = (r.1, none) := by
    rintro α ⟨x, y⟩ h
    cases y with
    | none => rfl
    | some e => simp at h
  have hl : ∀ a : BlockArgs, a.batches = exBlock.batches → ∀ x, x ∈ [exHash 9] ↔ ∃ path, a.batches.get? path = some x := by
    intro a e x
    rw [e]
    simp only [exBlock, List.mem_singleton, GMap.get?_insert]
    constructor
    · rintro rfl; exact ⟨str "state/sub", by simp⟩
    · rintro ⟨path, h⟩
      split at h
      · exact (Option.some.inj h).symm
      · simp at h
  refine .block (l := [exHash 9]) (o := .plain) (o' := .plain) (.seen (.block (bs := []) (l := [exHash 9]) (o := .plain) (o' := .plain) .nil (pair (by decide +kernel))
    (.sub (o := .plain) (o' := .plain) (l := []) .nil (by simp) (pair (by decide +kernel))) (hl _ rfl)) ⟨_, List.mem_singleton.mpr rfl, rfl⟩)
    (pair (by decide +kernel)) (.sub (o := .plain) (o' := .plain) (l := []) .nil (by simp) (pair (by decide +kernel))) (hl _ rfl)

/-- Partition 0 has everything in reverse, partition 1 a ping, a heartbeat and everything once more. -/
def exParts (i : Nat) : List RMsg :=
  if i = 0 then recv (exKP2.sent.map Prod.snd).reverse
  else recv (⟨PingType :: (exHash 5).bytes, []⟩ :: ⟨[], []⟩ :: exKP2.sent.map Prod.snd)

theorem exLink : KafkaLink Avro.codec (fun _ => none) exProducer ([(exBlock, exSubs)] ++ [(exNext, exSubs)]) exKP2 exSysCfg 4 2 (fun _ => 0) exParts := by
  have hin : ∀ {ms : List Msg} {r : RMsg}, r ∈ recv ms → ∃ m ∈ ms, r.key = m.key ∧ r.value = m.value := fun hr => recv_copy (fun _ h => h) hr
  refine ⟨exPublishes, ?_, ?_, ?_, ?_, ?_, ?_, ?_⟩
  · intro b hb
    simp only [List.cons_append, List.nil_append, List.mem_cons, List.not_mem_nil, or_false] at hb
    rcases hb with rfl | rfl
    · exact exBlock_wf
    · exact exNext_wf
  · exact ⟨rfl, rfl, show (200 : Int) < 300 by decide, rfl, rfl, show (300 : Int) < 310 by decide, trivial⟩
  · show [Hash.zero, exHash 2, exHash 1, exHash 3].Nodup
    decide
  · intro s _ x hx
    simp [exSysCfg, exCfg] at hx
  · intro t m hm
    obtain ⟨r, hr, e⟩ := recv_exact (ms := (exKP2.sent.map Prod.snd).reverse) (x := m) (by simp; exact ⟨t, hm⟩)
    exact ⟨0, by decide, r, hr, e⟩
  · intro i _ r hr
    unfold exParts at hr
    split at hr
    · obtain ⟨m, hm, e⟩ := hin hr
      simp only [List.mem_reverse, List.mem_map] at hm
      obtain ⟨⟨t, m⟩, hm, rfl⟩ := hm
      exact .inr (.inr ⟨t, m, hm, e⟩)
    · obtain ⟨m, hm, e⟩ := hin hr
      simp only [List.mem_cons, List.mem_map] at hm
      rcases hm with rfl | rfl | ⟨⟨t, m⟩, hm, rfl⟩
      · exact .inr (.inl (by rw [e.1]; rfl))
      · exact .inl e.1
      · exact .inr (.inr ⟨t, m, hm, e⟩)
  · intro i _
    have h2 : ∀ m ∈ exParts i, (0 : Int) ≤ m.offset := by
      intro m hm
      unfold exParts at hm
      split at hm <;> (obtain ⟨e, _, rfl⟩ := List.mem_map.mp hm; exact Int.natCast_nonneg _)
    have h3 : (exParts i).isEmpty = false := by
      unfold exParts
      split <;> decide +kernel
    cases h : exParts i with
    | nil => rw [h] at h3; simp at h3
    | cons m ms => exact ⟨m, by simp, h2 m (by rw [h]; simp)⟩

/-- C87: an execution of the example that has come to rest exists, and the subscribers have seen both blocks. -/
example : ∃ k0 k, KSys.start exSysCfg 2 (fun _ => 0) exParts = .ok k0 ∧ KSys.Steps Avro.codec exEnv .plain (str "d") k0 k ∧
    (k.sys.omp.log.flatMap addedBy).length = 2 := by
  have hst : ∃ k0, KSys.start exSysCfg 2 (fun _ => 0) exParts = .ok k0 := ⟨_, rfl⟩
  obtain ⟨k0, h0⟩ := hst
  have : ∃ k, KSys.Steps Avro.codec exEnv .plain (str "d") k0 k ∧ ∀ k', ¬ KSys.Step Avro.codec exEnv .plain (str "d") k k' := by
    apply Classical.byContradiction
    intro hno
    have hno : ∀ k, KSys.Steps Avro.codec exEnv .plain (str "d") k0 k → ∃ k', KSys.Step Avro.codec exEnv .plain (str "d") k k' := by
      intro k hk
      apply Classical.byContradiction
      intro h
      exact hno ⟨k, hk, fun k' hk' => h ⟨k', hk'⟩⟩
    let f : Nat → { k : KSys // KSys.Steps Avro.codec exEnv .plain (str "d") k0 k } := fun n => Nat.rec ⟨k0, .refl⟩
      (fun _ k => ⟨Classical.choose (hno k.1 k.2), .step k.2 (Classical.choose_spec (hno k.1 k.2))⟩) n
    exact k_no_endless (fun n => (f n).1) (fun n => Classical.choose_spec (hno (f n).1 (f n).2))
  obtain ⟨k, hk, hstuck⟩ := this
  exact ⟨k0, k, h0, hk, ((C87_published exLink Avro.codec_lawful h0 hk).2 hstuck (by intro t n hn; simp [exEnv] at hn)).2.1⟩

end Verif
