import Verif.Props.Noise
import Verif.Props.KafkaForks
/-!
# C161: a Kafka topic from which messages of older blocks have gone
-/
namespace Verif
open Spec

variable {C : Codec} {env : Env} {o : MapOrder} {topic : GoStr}

/-- The messages of some blocks in `np` partitions, messages of other blocks that are not all there, and between them heartbeats (empty keys), pings
and messages that begin no block. -/
structure Spec.NoisyParts (C : Codec) (cfg : Config) (tree broken : List SentBlock) (np : Nat) (start : Nat → Int) (msgs : Nat → List RMsg) : Prop where
  correct : ∀ s ∈ tree ++ broken, s.Correct C
  apart : ((tree ++ broken).map (·.args.hash)).Nodup
  lacks : ∀ s ∈ broken, NeverWhole cfg.tracked s (fun m => ∃ i, i < np ∧ m ∈ msgs i)
  only : ∀ i, i < np → ∀ m ∈ msgs i, m.key = [] ∨ m.key.head? = some PingType ∨ (∃ s ∈ tree ++ broken, Copy s.msgs m) ∨
    (Noise C (tree ++ broken) m ∧ m.key.head? ≠ some ReorgCompleteType)
  all : ∀ s ∈ tree, ∀ x ∈ s.msgs, ∃ i, i < np ∧ ∃ m ∈ msgs i, m.key = x.key ∧ Copy s.msgs m
  /-- every partition has a message at or after the offset its reader starts from (else all readers wait: C67) -/
  warm : ∀ i, i < np → ∃ m ∈ msgs i, start i ≤ m.offset

/-- The blocks are a tree above the last processed block. -/
structure Spec.NoisyTopic (C : Codec) (cfg : Config) (root : SentBlock) (tree broken : List SentBlock) (np : Nat) (start : Nat → Int)
    (msgs : Nat → List RMsg) : Prop extends HeaderTree cfg root tree, NoisyParts C cfg tree broken np start msgs

/-- The blocks are a chain on the last processed block, which has number `n`. -/
structure Spec.NoisyChainTopic (C : Codec) (cfg : Config) (n : Int) (chain broken : List SentBlock) (np : Nat) (start : Nat → Int)
    (msgs : Nat → List RMsg) : Prop extends NoisyParts C cfg chain broken np start msgs where
  links : ChainOf cfg.lastHash n cfg.lastWeight chain
  hashes : (Hash.zero :: cfg.lastHash :: chain.map (·.args.hash)).Nodup
  whitelist : ∀ s ∈ chain, ∀ h, cfg.whitelist.get? (heightKey s.args.number) = some h → h = s.args.hash

section
variable {cfg : Config} {root : SentBlock} {tree broken : List SentBlock} {np : Nat} {start : Nat → Int} {msgs : Nat → List RMsg}

/-- The messages passed on are those of the blocks and noise. -/
theorem Spec.NoisyParts.inside (h : NoisyParts C cfg tree broken np start msgs) {k : KSys} (hk : KInv C env o cfg np start msgs k) :
    NoisySupply C cfg tree broken (k.seen.filter (fun m => Ordinary m)) := by
  refine ⟨h.correct, h.apart, fun s hs => ?_, ?_⟩
  · obtain ⟨x, hx, hM, hno⟩ := h.lacks s hs
    refine ⟨x, hx, hM, fun m hm => ?_⟩
    obtain ⟨i, hi⟩ := mem_seen (List.mem_filter.mp hm).1
    obtain ⟨h1, h2⟩ := hk.source hi
    exact hno m ⟨i, h1, h2⟩
  intro m hm
  obtain ⟨hm, ho⟩ := List.mem_filter.mp hm
  have ho : Ordinary m := by simpa using ho
  obtain ⟨i, hi⟩ := mem_seen hm
  obtain ⟨h1, h2⟩ := hk.source hi
  rcases h.only i h1 m h2 with e | e | e | e
  · exact absurd e ho.1
  · exact absurd e ho.2.2.1
  · exact .inl e
  · exact .inr e.1

theorem Spec.NoisyTopic.inside (h : NoisyTopic C cfg root tree broken np start msgs) {k : KSys} (hk : KInv C env o cfg np start msgs k) :
    NoisyTree C cfg root tree broken (k.seen.filter (fun m => Ordinary m)) := ⟨h.toHeaderTree, h.toNoisyParts.inside hk⟩

theorem Spec.NoisyChainTopic.inside {n : Int} (h : NoisyChainTopic C cfg n tree broken np start msgs) {k : KSys} (hk : KInv C env o cfg np start msgs k) :
    NoisyChain C cfg n tree broken (k.seen.filter (fun m => Ordinary m)) := ⟨h.toNoisyParts.inside hk, h.links, h.hashes, h.whitelist⟩

/-- If in every partition the headers follow the messages of the parents, they do in whatever order the partitions are read. -/
theorem headers_follow_noisy (h : NoisyTopic C cfg root tree broken np start msgs) (hC : C.Lawful) {k : KSys} (hk : KInv C env o cfg np start msgs k)
    (hf : ∀ i, i < np → HeadersFollow root tree (msgs i)) : HeadersFollow root tree (k.seen.filter (fun m => Ordinary m)) := by
  intro l1 m l2 e ht s hs hb
  obtain ⟨a, b, e1, e2, -⟩ := split_filter e
  -- the position on the channel
  unfold KSys.seen at e1
  obtain ⟨oa, ob, e3, e4, e5⟩ := List.map_eq_append_iff.mp e1
  obtain ⟨⟨i, m'⟩, oc, rfl, e6, e7⟩ := List.map_eq_cons_iff.mp e5
  simp only at e6
  subst e6
  obtain ⟨D, hD⟩ : ∃ D, D = k.w.out.drop k.taken := ⟨_, rfl⟩
  have hout : k.w.out = oa ++ (i, m') :: (oc ++ D) := by
    have := List.take_append_drop k.taken k.w.out
    rw [e3, ← hD] at this
    rw [← this]; simp
  obtain ⟨hi, -⟩ := hk.source (i := i) (m := m') (by rw [hout]; simp)
  obtain ⟨t, hpre⟩ := C67_prefix hk.w i
  have hpart : msgs i = forwarded oa i ++ m' :: (forwarded (oc ++ D) i ++ t) := by
    rw [← hpre, hout]
    simp [forwarded, List.filter_append]
  rcases hf i hi _ _ _ hpart ht s hs hb with hr | ⟨p, hp, h1, h2⟩
  · exact .inl hr
  · refine .inr ⟨p, hp, h1, ?_⟩
    intro x hx
    obtain ⟨y, hy, hxy⟩ := h2 x hx
    refine ⟨y, ?_, hxy⟩
    rw [← e2]
    refine List.mem_filter.mpr ⟨?_, by simpa using copy_ordinary hC (h.correct p (List.mem_append_left _ hp)) hxy.2⟩
    rw [← e4]
    obtain ⟨⟨j, z⟩, hz, rfl⟩ := List.mem_map.mp hy
    exact List.mem_map.mpr ⟨(j, z), (List.mem_filter.mp hz).1, rfl⟩

theorem Spec.NoisyParts.calm (h : NoisyParts C cfg tree broken np start msgs) (hC : C.Lawful) {k : KSys} (hk : KInv C env o cfg np start msgs k)
    {i : Nat} {m : RMsg} (hm : (i, m) ∈ k.w.out) (wg : Nat) :
    ∃ a, KC.dispatch false topic wg m.key = .ok (a, wg) ∧ ∀ t, a ≠ .reorgConsumer t := by
  obtain ⟨h1, h2⟩ := hk.source hm
  rcases h.only i h1 m h2 with e | e | ⟨s, hs, e⟩ | ⟨hN, hR⟩
  · exact ⟨.heartbeatGauge, by rw [e]; rfl, by simp⟩
  · cases hkey : m.key with
    | nil => rw [hkey] at e; simp at e
    | cons t rest =>
      rw [hkey] at e
      simp only [List.head?_cons, Option.some.injEq] at e
      subst e
      exact ⟨.ping (bytesToHash rest), by simp [KC.dispatch, show PingType ≠ ReorgType by decide], by simp⟩
  · have ho := copy_ordinary hC (h.correct s hs) e
    cases hkey : m.key with
    | nil => exact absurd hkey ho.1
    | cons t rest =>
      obtain ⟨_, o1, o2, o3⟩ := ho
      rw [hkey] at o1 o2 o3
      simp only [List.head?_cons, ne_eq, Option.some.injEq] at o1 o2 o3
      exact ⟨.process, by simp [KC.dispatch, o1, o2, o3], by simp⟩
  · cases hkey : m.key with
    | nil => have := hN.len; rw [hkey] at this; simp at this
    | cons t rest =>
      by_cases hp : t = PingType
      · subst hp
        exact ⟨.ping (bytesToHash rest), by simp [KC.dispatch, show PingType ≠ ReorgType by decide], by simp⟩
      · have o1 := hN.notReorg
        rw [hkey] at o1 hR
        simp only [List.head?_cons, ne_eq, Option.some.injEq] at o1 hR
        exact ⟨.process, by simp [KC.dispatch, o1, hp, hR], by simp⟩

/-- If the inner goroutines do not fault, the Kafka consumer does not and is not stuck before everything has been handled. -/
theorem Spec.NoisyParts.progress (h : NoisyParts C cfg tree broken np start msgs) (hC : C.Lawful) {k : KSys} (hv : KInv C env o cfg np start msgs k)
    (hnf : ¬ Faulty C env o k.sys) : ¬ k.Faulting C env o topic ∧
      ((∃ k', KSys.Step C env o topic k k') ∨
        k.sys.Drained ∧ k.taken = k.w.out.length ∧ ∀ i, i < np → forwarded k.w.out i = msgs i) := by
  refine ⟨?_, ?_⟩
  · rintro (⟨i, m, f, hm, hf⟩ | hf)
    · obtain ⟨a, ha, _⟩ := h.calm (topic := topic) hC hv (List.mem_of_getElem? hm) k.wg
      rw [ha] at hf
      simp at hf
    · exact hnf hf
  · by_cases hd : k.sys.Drained
    · by_cases htk : k.taken < k.w.out.length
      · left
        obtain ⟨a, ha, hr⟩ := h.calm (topic := topic) hC hv (List.getElem_mem htk) k.wg
        exact ⟨_, .take hd.1 hd.2.1 (List.getElem?_eq_getElem htk) ha hr⟩
      · have htk : k.taken = k.w.out.length := by have := hv.taken; omega
        by_cases hw : ∃ t, WState.Step k.w t
        · left
          obtain ⟨t, ht⟩ := hw
          refine ⟨_, .part ht ?_⟩
          rw [htk]
          unfold messagesCap
          cases ht <;> simp [WState.upd]
        · right
          exact ⟨hd, htk, fun i hi => C67_all_partial hv.w h.warm (fun t ht => hw ⟨t, ht⟩) i hi⟩
    · left
      obtain ⟨s, hs⟩ := (k.sys.progress (C := C) (env := env) (o := o) hd).resolve_right hnf
      exact ⟨_, .inner hs⟩

/-- At rest all messages of the blocks have been passed on. -/
theorem Spec.NoisyParts.arrived (h : NoisyParts C cfg tree broken np start msgs) (hC : C.Lawful) {k : KSys} (htk : k.taken = k.w.out.length)
    (hall : ∀ i, i < np → forwarded k.w.out i = msgs i) :
    (∀ i, i < np → ∀ m ∈ msgs i, m ∈ k.seen) ∧ ∀ s ∈ tree, AllArrive s.msgs (k.seen.filter (fun m => Ordinary m)) := by
  have hseen : ∀ i, i < np → ∀ m ∈ msgs i, m ∈ k.seen := by
    intro i hi m hm
    rw [← hall i hi] at hm
    obtain ⟨⟨j, x⟩, hx, rfl⟩ := List.mem_map.mp hm
    unfold KSys.seen
    rw [htk, List.take_length]
    exact List.mem_map.mpr ⟨(j, x), (List.mem_filter.mp hx).1, rfl⟩
  refine ⟨hseen, ?_⟩
  intro s hs x hx
  obtain ⟨i, hi, m, hm, e1, e2⟩ := h.all s hs x hx
  refine ⟨m, List.mem_filter.mpr ⟨hseen i hi m hm, ?_⟩, e1, e2⟩
  simpa using copy_ordinary hC (h.correct s (List.mem_append_left _ hs)) e2

/-- **C161**, no faults and no deadlock, however the messages are spread over the partitions. -/
theorem C161_progress (h : NoisyTopic C cfg root tree broken np start msgs) (hC : C.Lawful) (hwin : (tree.length : Int) ≤ 2 * cfg.reorgThreshold)
    {k0 : KSys} (h0 : KSys.start cfg np start msgs = .ok k0) :
    (∀ f : Nat → KSys, ¬ ∀ n, KSys.Step C env o topic (f n) (f (n + 1))) ∧
    ∀ k, KSys.Steps C env o topic k0 k → ¬ k.Faulting C env o topic ∧
      ((∃ k', KSys.Step C env o topic k k') ∨
        k.sys.Drained ∧ k.taken = k.w.out.length ∧ ∀ i, i < np → forwarded k.w.out i = msgs i) := by
  refine ⟨fun f hf => k_no_endless f hf, ?_⟩
  intro k hk
  have hv := kinv_steps h0 hk
  obtain ⟨s0, r1, r2⟩ := hv.run
  exact h.toNoisyParts.progress hC hv (C160_no_fault (h.inside hv) hC hwin r1 r2).1

/-- **C161**, while running: if in every partition no header comes before the messages of its parent, then at every moment, under any schedule, the
head of the subscribers is the first-handled block of maximal weight among those handled. -/
theorem C161_head (h : NoisyTopic C cfg root tree broken np start msgs) (hC : C.Lawful) (hwin : (tree.length : Int) ≤ 2 * cfg.reorgThreshold)
    (hf : ∀ i, i < np → HeadersFollow root tree (msgs i)) {k0 k : KSys} (h0 : KSys.start cfg np start msgs = .ok k0)
    (hk : KCausal C env o topic k0 k) (hne : blocksOf k.sys.ops ≠ []) : FirstHeaviest (blocksOf k.sys.ops) k.sys.omp.lastHash := by
  have hv := kinv_steps h0 hk.steps
  obtain ⟨s0, r1, r2⟩ := kcausal_run h0 hk
  exact (C160_head (h.inside hv) hC hwin (headers_follow_noisy h hC hv hf) r1 r2 hne).1

/-- **C161**: when a Kafka consumer has come to rest, the subscribers, having applied all updates, hold a chain of blocks exactly as produced that
ends in a heaviest block of the tree. -/
theorem C161_end (h : NoisyTopic C cfg root tree broken np start msgs) (hC : C.Lawful) (hwin : (tree.length : Int) ≤ 2 * cfg.reorgThreshold)
    (hf : ∀ i, i < np → HeadersFollow root tree (msgs i)) {k0 k : KSys} (h0 : KSys.start cfg np start msgs = .ok k0)
    (hk : KCausal C env o topic k0 k) (hstuck : ∀ k', ¬ KSys.Step C env o topic k k') (hg : Heard env k.sys) :
    ∃ base chain top, Replays cfg.lastHash k.sys.omp.log base chain ∧ Linked base chain ∧ endOf base chain = top.args.hash ∧
      top ∈ tree ∧ (∀ sb ∈ tree, sb.args.weight ≤ top.args.weight) ∧
      ∀ b ∈ chain, ∃ sb ∈ tree, Exact cfg.tracked sb.schema sb.args sb.subs b := by
  have hv := kinv_steps h0 hk.steps
  obtain ⟨s0, r1, r2⟩ := kcausal_run h0 hk
  obtain ⟨hd, htk, hall⟩ :=
    (((C161_progress (env := env) (o := o) (topic := topic) h hC hwin h0).2 k hk.steps).2).resolve_left (fun ⟨k', hk'⟩ => hstuck k' hk')
  exact C160_end (h.inside hv) hC hwin (headers_follow_noisy h hC hv hf) (h.toNoisyParts.arrived hC htk hall).2 r1 r2 hd hg

/-- **C161**, a chain: no faults and no deadlock. -/
theorem C161_chain_progress {n : Int} (h : NoisyChainTopic C cfg n tree broken np start msgs) (hC : C.Lawful)
    {k0 : KSys} (h0 : KSys.start cfg np start msgs = .ok k0) :
    (∀ f : Nat → KSys, ¬ ∀ n, KSys.Step C env o topic (f n) (f (n + 1))) ∧
    ∀ k, KSys.Steps C env o topic k0 k → ¬ k.Faulting C env o topic ∧
      ((∃ k', KSys.Step C env o topic k k') ∨
        k.sys.Drained ∧ k.taken = k.w.out.length ∧ ∀ i, i < np → forwarded k.w.out i = msgs i) := by
  refine ⟨fun f hf => k_no_endless f hf, ?_⟩
  intro k hk
  have hv := kinv_steps h0 hk
  obtain ⟨s0, r1, r2⟩ := hv.run
  exact h.toNoisyParts.progress hC hv (C160_chain_no_fault (h.inside hv) hC r1 r2).1

/-- **C161**, a chain: when a Kafka consumer has come to rest, under any schedule of its goroutines, the subscribers have seen each block of the chain
exactly once, in chain order, each exactly as produced, and nothing removed. The messages may be spread over the partitions in any way, in any order.
Every ping was counted. -/
theorem C161_chain {n : Int} (h : NoisyChainTopic C cfg n tree broken np start msgs) (hC : C.Lawful) {k0 k : KSys}
    (h0 : KSys.start cfg np start msgs = .ok k0)
    (hk : KSys.Steps C env o topic k0 k) (hstuck : ∀ k', ¬ KSys.Step C env o topic k k') (hg : Genuine env k.sys) :
    (∀ x ∈ k.sys.omp.log, (∃ a, x = .update a []) ∨ ∃ sb ∈ tree, x = .evictOlder sb.args.number) ∧
    (k.sys.omp.log.flatMap addedBy).length = tree.length ∧
    (∀ x ∈ tree.zip (k.sys.omp.log.flatMap addedBy), Exact cfg.tracked x.1.schema x.1.args x.1.subs x.2) ∧
    ∀ i, i < np → ∀ m ∈ msgs i, ∀ rest, m.key = PingType :: rest → bytesToHash rest ∈ k.beats := by
  have hv := kinv_steps h0 hk
  obtain ⟨s0, r1, r2⟩ := hv.run
  obtain ⟨hd, htk, hall⟩ :=
    (((C161_chain_progress (env := env) (o := o) (topic := topic) h hC h0).2 k hk).2).resolve_left (fun ⟨k', hk'⟩ => hstuck k' hk')
  obtain ⟨hseen, ha⟩ := h.toNoisyParts.arrived hC htk hall
  obtain ⟨g1, g2, g3⟩ := C160_chain (h.inside hv) hC ha r1 r2 hd hg
  refine ⟨g1, g2, g3, ?_⟩
  intro i hi m hm rest e
  rw [hv.beats]
  exact List.mem_flatMap.mpr ⟨m, hseen i hi m hm, by simp [e]⟩

end

/-! ## Examples -/

/-- A topic with one partition: what is left of `exOldBlock`, a message of an unknown type, and then the fork of C111. An execution that has come to rest
exists. -/
theorem exAged_run : ∃ root tree broken ms k0 k, NoisyTopic Avro.codec exForkCfg root tree broken 1 (fun _ => 0) (fun _ => ms) ∧
    (∃ m ∈ ms, m.key.head? = some BatchType ∧ blockOf m.key = exHash 2) ∧ exStrayType ∈ ms ∧ (tree.length : Int) ≤ 2 * exForkCfg.reorgThreshold ∧
    HeadersFollow root tree ms ∧ KSys.start exForkCfg 1 (fun _ => 0) (fun _ => ms) = .ok k0 ∧ KCausal Avro.codec exEnv .plain (str "d") k0 k ∧
    (∀ k', ¬ KSys.Step Avro.codec exEnv .plain (str "d") k k') ∧ Heard exEnv k.sys := by
  obtain ⟨tree, root, ht, -, hK, -, hF⟩ := exTreeLink.feedOrder Avro.codec_lawful
  obtain ⟨old, hold, harg, hleft, -, ⟨mh, hmh, hmh1, hmh2⟩, x, hx, hM, hxk⟩ := exLeft_block
  have hth : tree.map (·.args.hash) = [exHash 1, exHash 3, exHash 5] := by
    have := congrArg (List.map (fun b => b.1.hash)) ht
    rw [List.map_map] at this
    exact this
  have hall : (tree ++ [old]).map (·.args.hash) = [exHash 1, exHash 3, exHash 5, exHash 2] := by
    rw [List.map_append, hth]
    simp only [List.map_cons, List.map_nil, harg]
    rfl
  let left := exLeft old.msgs ++ [exStrayType]
  have hblock : ∀ m ∈ exLeft old.msgs, blockOf m.key = exHash 2 := by
    intro m hm
    have := copy_hash Avro.codec_lawful hold (hleft m hm)
    rw [harg] at this
    exact this
  have hcopy : ∀ m ∈ exForkPart, m.key ≠ exLostKey := by
    intro m hm e
    rcases hK.only 0 (by decide) m hm with h | h | ⟨s, hs, hc⟩
    · rw [e] at h; revert h; decide +kernel
    · rw [e] at h; revert h; decide +kernel
    · have h1 : blockOf m.key = s.args.hash := copy_hash Avro.codec_lawful (hK.correct s hs) hc
      have h2 : s.args.hash ∈ tree.map (·.args.hash) := List.mem_map.mpr ⟨s, hs, rfl⟩
      rw [← h1, e, hth] at h2
      revert h2
      decide +kernel
  have hA : NoisyTopic Avro.codec exForkCfg root tree [old] 1 (fun _ => 0) (fun _ => left ++ (exForkPart ++ [])) := by
    refine ⟨hK.toHeaderTree, fun s hs => ?_, ?_, fun s hs => ?_, ?_, ?_, ?_⟩
    · rcases List.mem_append.mp hs with hs | hs
      · exact hK.correct s hs
      · rw [List.mem_singleton.mp hs]; exact hold
    · rw [hall]; decide
    · rw [List.mem_singleton.mp hs]
      refine ⟨x, hx, hM, fun m hm => ?_⟩
      obtain ⟨_, _, hm⟩ := hm
      rw [hxk]
      simp only [left, List.mem_append, List.mem_singleton, List.not_mem_nil, or_false] at hm
      rcases hm with (hm | rfl) | hm
      · simpa using (List.mem_filter.mp hm).2
      · decide +kernel
      · exact hcopy m hm
    · intro i hi m hm
      simp only [left, List.mem_append, List.mem_singleton, List.not_mem_nil, or_false] at hm
      rcases hm with (hm | rfl) | hm
      · exact .inr (.inr (.inl ⟨old, by simp, hleft m hm⟩))
      · exact .inr (.inr (.inr ⟨exStray_noise hall (by decide) _ (by simp), by decide⟩))
      · rcases hK.only i hi m hm with e | e | ⟨s, hs, hc⟩
        · exact .inl e
        · exact .inr (.inl e)
        · exact .inr (.inr (.inl ⟨s, by simp [hs], hc⟩))
    · intro s hs x hx
      obtain ⟨i, hi, m, hm, e⟩ := hK.all s hs x hx
      exact ⟨i, hi, m, by simp [hm], e⟩
    · intro i hi
      obtain ⟨m, hm, e⟩ := hK.warm i hi
      exact ⟨m, by simp [hm], e⟩
  have hF' : HeadersFollow root tree (left ++ (exForkPart ++ [])) := by
    refine headersFollow_pad (fun m hm s hs hty => ?_) hF
    simp only [left, List.mem_append, List.mem_singleton, List.not_mem_nil, or_false] at hm
    rcases hm with hm | rfl
    · rw [hblock m hm]
      intro e
      have h2 : s.args.hash ∈ tree.map (·.args.hash) := List.mem_map.mpr ⟨s, hs, rfl⟩
      rw [← e, hth] at h2
      revert h2
      decide
    · exact absurd hty (by decide)
  obtain ⟨k0, hst⟩ : ∃ k0, KSys.start exForkCfg 1 (fun _ => 0) (fun _ => left ++ (exForkPart ++ [])) = .ok k0 := ⟨_, rfl⟩
  have hev : ∀ t, exEnv.evict t = [] := fun _ => rfl
  have : ∃ k, KCausal Avro.codec exEnv .plain (str "d") k0 k ∧ ∀ k', ¬ KSys.Step Avro.codec exEnv .plain (str "d") k k' := by
    apply Classical.byContradiction
    intro hno
    have hno : ∀ k, KCausal Avro.codec exEnv .plain (str "d") k0 k → ∃ k', KSys.Step Avro.codec exEnv .plain (str "d") k k' := by
      intro k hk
      apply Classical.byContradiction
      intro h
      exact hno ⟨k, hk, fun k' hk' => h ⟨k', hk'⟩⟩
    let f : Nat → { k : KSys // KCausal Avro.codec exEnv .plain (str "d") k0 k } := fun n => Nat.rec ⟨k0, .refl⟩
      (fun _ k => ⟨Classical.choose (hno k.1 k.2), .step k.2 (Classical.choose_spec (hno k.1 k.2)) (fun _ t _ n hn => by rw [hev] at hn; simp at hn)⟩) n
    exact k_no_endless (fun n => (f n).1) (fun n => Classical.choose_spec (hno (f n).1 (f n).2))
  obtain ⟨k, hk, hstuck⟩ := this
  have hlen : tree.length = 3 := by simpa using congrArg List.length hth
  exact ⟨root, tree, [old], left ++ (exForkPart ++ []), k0, k, hA, ⟨mh, by simp [left, hmh], hmh1, hmh2⟩, by simp [left],
    by rw [hlen]; show (3 : Int) ≤ 2 * 2; decide, hF', hst, hk, hstuck, fun t _ n hn => by rw [hev] at hn; simp at hn⟩

/-- The partitions of C87, and before them in partition 0 what is left of the last processed block and a message of an unknown type. -/
def exLeftParts (left : List RMsg) (i : Nat) : List RMsg := (if i = 0 then left ++ [exStrayType] else []) ++ exParts i

/-- Two blocks in two partitions with the remains of another: an execution that has come to rest exists. -/
theorem exAgedChain : ∃ chain broken msgs k0 k, chain.length = 2 ∧ NoisyChainTopic Avro.codec exSysCfg 4 chain broken 2 (fun _ => 0) msgs ∧
    (∃ m ∈ msgs 0, m.key.head? = some BatchType ∧ blockOf m.key = exHash 2) ∧ exStrayType ∈ msgs 0 ∧
    KSys.start exSysCfg 2 (fun _ => 0) msgs = .ok k0 ∧ KSys.Steps Avro.codec exEnv .plain (str "d") k0 k ∧
    (∀ k', ¬ KSys.Step Avro.codec exEnv .plain (str "d") k k') ∧ Genuine exEnv k.sys := by
  obtain ⟨chain, hb, -, hK⟩ := exLink.feed
  obtain ⟨old, hold, harg, hleft, -, ⟨mh, hmh, hmh1, hmh2⟩, x, hx, hM, hxk⟩ := exLeft_block
  have hth : chain.map (·.args.hash) = [exHash 1, exHash 3] := by
    have := congrArg (List.map (fun b => b.1.hash)) hb
    rw [List.map_map] at this
    exact this
  have hall : (chain ++ [old]).map (·.args.hash) = [exHash 1, exHash 3, exHash 2] := by
    rw [List.map_append, hth]
    simp only [List.map_cons, List.map_nil, harg]
    rfl
  have hmem : ∀ {i m}, m ∈ exLeftParts (exLeft old.msgs) i → m ∈ exLeft old.msgs ∨ m = exStrayType ∨ m ∈ exParts i := by
    intro i m hm
    unfold exLeftParts at hm
    rcases List.mem_append.mp hm with hm | hm
    · split at hm
      · rcases List.mem_append.mp hm with hm | hm
        · exact .inl hm
        · exact .inr (.inl (List.mem_singleton.mp hm))
      · simp at hm
    · exact .inr (.inr hm)
  have hA : NoisyChainTopic Avro.codec exSysCfg 4 chain [old] 2 (fun _ => 0) (exLeftParts (exLeft old.msgs)) := by
    refine ⟨⟨fun s hs => ?_, ?_, fun s hs => ?_, ?_, ?_, ?_⟩, hK.links, hK.hashes, hK.whitelist⟩
    · rcases List.mem_append.mp hs with hs | hs
      · exact hK.correct s hs
      · rw [List.mem_singleton.mp hs]; exact hold
    · rw [hall]; decide
    · rw [List.mem_singleton.mp hs]
      refine ⟨x, hx, hM, fun m hm => ?_⟩
      obtain ⟨i, hi, hm⟩ := hm
      rw [hxk]
      rcases hmem hm with hm | rfl | hm
      · simpa using (List.mem_filter.mp hm).2
      · decide +kernel
      · intro e
        rcases hK.only i hi m hm with h | h | ⟨s, hs, hc⟩
        · rw [e] at h; revert h; decide +kernel
        · rw [e] at h; revert h; decide +kernel
        · have h1 : blockOf m.key = s.args.hash := copy_hash Avro.codec_lawful (hK.correct s hs) hc
          have h2 : s.args.hash ∈ chain.map (·.args.hash) := List.mem_map.mpr ⟨s, hs, rfl⟩
          rw [← h1, e, hth] at h2
          revert h2
          decide +kernel
    · intro i hi m hm
      rcases hmem hm with hm | rfl | hm
      · exact .inr (.inr (.inl ⟨old, by simp, hleft m hm⟩))
      · exact .inr (.inr (.inr ⟨exStray_noise hall (by decide) _ (by simp), by decide⟩))
      · rcases hK.only i hi m hm with e | e | ⟨s, hs, hc⟩
        · exact .inl e
        · exact .inr (.inl e)
        · exact .inr (.inr (.inl ⟨s, by simp [hs], hc⟩))
    · intro s hs x hx
      obtain ⟨i, hi, m, hm, e⟩ := hK.all s hs x hx
      exact ⟨i, hi, m, List.mem_append_right _ hm, e⟩
    · intro i hi
      obtain ⟨m, hm, e⟩ := hK.warm i hi
      exact ⟨m, List.mem_append_right _ hm, e⟩
  obtain ⟨k0, hst⟩ : ∃ k0, KSys.start exSysCfg 2 (fun _ => 0) (exLeftParts (exLeft old.msgs)) = .ok k0 := ⟨_, rfl⟩
  have : ∃ k, KSys.Steps Avro.codec exEnv .plain (str "d") k0 k ∧ ∀ k', ¬ KSys.Step Avro.codec exEnv .plain (str "d") k k' := by
    apply Classical.byContradiction
    intro hno
    have hno : ∀ k, KSys.Steps Avro.codec exEnv .plain (str "d") k0 k → ∃ k', KSys.Step Avro.codec exEnv .plain (str "d") k k' := by
      intro k hk
      apply Classical.byContradiction
      intro h
      exact hno ⟨k, hk, fun k' hk' => h ⟨k', hk'⟩⟩
    let f : Nat → { k : KSys // KSys.Steps Avro.codec exEnv .plain (str "d") k0 k } := fun n => Nat.rec ⟨k0, .refl⟩
      (fun _ k => ⟨Classical.choose (hno k.1 k.2), .step k.2 (Classical.choose_spec (hno k.1 k.2))⟩) n
    exact k_no_endless (fun n => (f n).1) (fun n => Classical.choose_spec (hno (f n).1 (f n).2))
  obtain ⟨k, hk, hstuck⟩ := this
  exact ⟨chain, [old], _, k0, k, by simpa using congrArg List.length hth, hA, ⟨mh, by simp [exLeftParts, hmh], hmh1, hmh2⟩, by simp [exLeftParts],
    hst, hk, hstuck, by intro t n hn; simp [exEnv] at hn⟩

end Verif
