import Verif.Props.KafkaSystem
import Verif.Props.Forks
import Verif.Proofs.OrderingStrays
/-!
# C111: from the partitions of a Kafka topic to the subscribers, with forks
-/
namespace Verif
open Spec

variable {C : Codec} {env : Env} {o : MapOrder} {topic : GoStr}

/-- The messages of a tree of blocks in `np` partitions. Nothing else is there except heartbeats (empty keys) and pings. -/
structure Spec.KafkaTree (C : Codec) (cfg : Config) (root : SentBlock) (tree : List SentBlock) (np : Nat) (start : Nat → Int)
    (msgs : Nat → List RMsg) : Prop extends HeaderTree cfg root tree where
  correct : ∀ s ∈ tree, s.Correct C
  only : ∀ i, i < np → ∀ m ∈ msgs i, m.key = [] ∨ m.key.head? = some PingType ∨ ∃ s ∈ tree, Copy s.msgs m
  all : ∀ s ∈ tree, ∀ x ∈ s.msgs, ∃ i, i < np ∧ ∃ m ∈ msgs i, m.key = x.key ∧ Copy s.msgs m
  /-- every partition has a message at or after the offset its reader starts from (else all readers wait: C67) -/
  warm : ∀ i, i < np → ∃ m ∈ msgs i, start i ≤ m.offset

/-- Executions in which, whenever `ProcessMessage` starts, the eviction requests acted on before had been sent by the ordering layer. -/
inductive Spec.KCausal (C : Codec) (env : Env) (o : MapOrder) (topic : GoStr) (k : KSys) : KSys → Prop
  | refl : KCausal C env o topic k k
  | step {k1 k2 : KSys} : KCausal C env o topic k k1 → KSys.Step C env o topic k1 k2 → (k2.sys.calls ≠ k1.sys.calls → Heard env k1.sys) →
      KCausal C env o topic k k2

theorem Spec.KCausal.steps {k0 k : KSys} (h : KCausal C env o topic k0 k) : KSys.Steps C env o topic k0 k := by
  induction h with
  | refl => exact .refl
  | step _ h _ ih => exact .step ih h

theorem causal_more {s s' : Sys} (h : CausalSteps C env o s s') (cs : List Call) : CausalSteps C env o (s.more cs) (s'.more cs) := by
  induction h with
  | refl => exact .refl
  | step _ h hh ih => exact .step ih (h.more cs) hh

section
variable {cfg : Config} {root : SentBlock} {tree : List SentBlock} {np : Nat} {start : Nat → Int} {msgs : Nat → List RMsg}

theorem kcausal_run {k0 k : KSys} (h0 : KSys.start cfg np start msgs = .ok k0) (h : KCausal C env o topic k0 k) :
    ∃ s0, Sys.start cfg ((k.seen.filter (fun m => Ordinary m)).map Call.msg) = .ok s0 ∧ CausalSteps C env o s0 k.sys := by
  induction h with
  | refl =>
    unfold KSys.start at h0
    obtain ⟨s, h1, h0⟩ := bind_ok.mp h0
    cases h0
    exact ⟨s, h1, .refl⟩
  | step hss hst hheard ih =>
    rename_i k1 k2
    have hv := kinv_steps h0 hss.steps
    cases hst with
    | part hw hroom =>
      rename_i w
      obtain ⟨t, ht⟩ := wstate_out hw
      have hseen : (w.out.take k1.taken).map Prod.snd = k1.seen := by
        unfold KSys.seen
        rw [← ht, List.take_append_of_le_length hv.taken]
      show ∃ s0, Sys.start cfg ((((w.out.take k1.taken).map Prod.snd).filter (fun m => Ordinary m)).map Call.msg) = .ok s0 ∧ _
      rw [hseen]; exact ih
    | take ht hout hm hd hr =>
      rename_i i m a wg
      have hseen : (k1.w.out.take (k1.taken + 1)).map Prod.snd = k1.seen ++ [m] := by
        unfold KSys.seen
        rw [List.take_add_one, hm]
        simp
      obtain ⟨c1, _⟩ := dispatch_cases hd hr
      have hord : Ordinary ⟨m.key, [], 0, []⟩ ↔ Ordinary m := Iff.rfl
      obtain ⟨s0, r1, r2⟩ := ih
      show ∃ s0, Sys.start cfg ((((k1.w.out.take (k1.taken + 1)).map Prod.snd).filter (fun m => Ordinary m)).map Call.msg) = .ok s0 ∧ _
      rw [hseen, List.filter_append, List.map_append]
      by_cases hp : a = .process
      · have hm' : Ordinary m := hord.mp (c1.mp hp)
        refine ⟨_, start_more r1, ?_⟩
        simp only [hp, if_true]
        have := causal_more r2 [Call.msg m]
        have e : k1.sys.more [Call.msg m] = { k1.sys with todo := [.msg m] } := by simp [Sys.more, ht]
        rw [e] at this
        simpa [hm'] using this
      · have hm' : ¬ Ordinary m := fun x => hp (c1.mpr (hord.mpr x))
        refine ⟨s0, ?_, ?_⟩
        · simpa [hm'] using r1
        · simp only [hp, if_false]; exact r2
    | inner hs =>
      obtain ⟨s0, r1, r2⟩ := ih
      exact ⟨s0, r1, .step r2 hs hheard⟩

/-- The messages passed on are those of the tree. -/
theorem Spec.KafkaTree.inside (h : KafkaTree C cfg root tree np start msgs) {k : KSys} (hk : KInv C env o cfg np start msgs k) :
    SentTree C cfg root tree (k.seen.filter (fun m => Ordinary m)) := by
  refine ⟨h.toHeaderTree, h.correct, ?_⟩
  intro m hm
  obtain ⟨hm, ho⟩ := List.mem_filter.mp hm
  have ho : Ordinary m := by simpa using ho
  obtain ⟨i, hi⟩ := mem_seen hm
  obtain ⟨h1, h2⟩ := hk.source hi
  rcases h.only i h1 m h2 with e | e | e
  · exact absurd e ho.1
  · exact absurd e ho.2.2.1
  · exact e

/-- If in every partition the headers follow the messages of the parents, they do in whatever order the partitions are read. -/
theorem headers_follow_merged (h : KafkaTree C cfg root tree np start msgs) (hC : C.Lawful) {k : KSys} (hk : KInv C env o cfg np start msgs k)
    (hf : ∀ i, i < np → HeadersFollow root tree (msgs i)) : HeadersFollow root tree (k.seen.filter (fun m => Ordinary m)) := by
  intro l1 m l2 e ht s hs hb
  obtain ⟨a, b, e1, e2, -⟩ := split_filter e
  -- the position on the channel
  unfold KSys.seen at e1
  obtain ⟨oa, ob, e3, e4, e5⟩ := List.map_eq_append_iff.mp e1
  obtain ⟨⟨i, m'⟩, oc, rfl, e6, e7⟩ := List.map_eq_cons_iff.mp e5
  simp only at e6
  subst e6
  obtain ⟨D, hD⟩ : ∃ D, D = k.w.out.drop k.taken := ⟨_, rfl⟩
  have hout : k.w.out = oa ++ (i, m') :: (oc ++ D) := by
    have := List.take_append_drop k.taken k.w.out
    rw [e3, ← hD] at this
    rw [← this]; simp
  obtain ⟨hi, -⟩ := hk.source (i := i) (m := m') (by rw [hout]; simp)
  obtain ⟨t, hpre⟩ := C67_prefix hk.w i
  have hpart : msgs i = forwarded oa i ++ m' :: (forwarded (oc ++ D) i ++ t) := by
    rw [← hpre, hout]
    simp [forwarded, List.filter_append]
  rcases hf i hi _ _ _ hpart ht s hs hb with hr | ⟨p, hp, h1, h2⟩
  · exact .inl hr
  · refine .inr ⟨p, hp, h1, ?_⟩
    intro x hx
    obtain ⟨y, hy, hxy⟩ := h2 x hx
    refine ⟨y, ?_, hxy⟩
    rw [← e2]
    refine List.mem_filter.mpr ⟨?_, by simpa using copy_ordinary hC (h.correct p hp) hxy.2⟩
    rw [← e4]
    obtain ⟨⟨j, z⟩, hz, rfl⟩ := List.mem_map.mp hy
    exact List.mem_map.mpr ⟨(j, z), (List.mem_filter.mp hz).1, rfl⟩

theorem Spec.KafkaTree.calm (h : KafkaTree C cfg root tree np start msgs) (hC : C.Lawful) {k : KSys} (hk : KInv C env o cfg np start msgs k)
    {i : Nat} {m : RMsg} (hm : (i, m) ∈ k.w.out) (wg : Nat) :
    ∃ a, KC.dispatch false topic wg m.key = .ok (a, wg) ∧ ∀ t, a ≠ .reorgConsumer t := by
  obtain ⟨h1, h2⟩ := hk.source hm
  rcases h.only i h1 m h2 with e | e | ⟨s, hs, e⟩
  · exact ⟨.heartbeatGauge, by rw [e]; rfl, by simp⟩
  · cases hkey : m.key with
    | nil => rw [hkey] at e; simp at e
    | cons t rest =>
      rw [hkey] at e
      simp only [List.head?_cons, Option.some.injEq] at e
      subst e
      exact ⟨.ping (bytesToHash rest), by simp [KC.dispatch, show PingType ≠ ReorgType by decide], by simp⟩
  · have ho := copy_ordinary hC (h.correct s hs) e
    cases hkey : m.key with
    | nil => exact absurd hkey ho.1
    | cons t rest =>
      obtain ⟨_, o1, o2, o3⟩ := ho
      rw [hkey] at o1 o2 o3
      simp only [List.head?_cons, ne_eq, Option.some.injEq] at o1 o2 o3
      exact ⟨.process, by simp [KC.dispatch, o1, o2, o3], by simp⟩

/-- **C111**, no faults and no deadlock, however the messages are spread over the partitions. -/
theorem C111_progress (h : KafkaTree C cfg root tree np start msgs) (hC : C.Lawful) (hwin : (tree.length : Int) ≤ 2 * cfg.reorgThreshold)
    {k0 : KSys} (h0 : KSys.start cfg np start msgs = .ok k0) :
    (∀ f : Nat → KSys, ¬ ∀ n, KSys.Step C env o topic (f n) (f (n + 1))) ∧
    ∀ k, KSys.Steps C env o topic k0 k → ¬ k.Faulting C env o topic ∧
      ((∃ k', KSys.Step C env o topic k k') ∨
        k.sys.Drained ∧ k.taken = k.w.out.length ∧ ∀ i, i < np → forwarded k.w.out i = msgs i) := by
  refine ⟨fun f hf => k_no_endless f hf, ?_⟩
  intro k hk
  have hv := kinv_steps h0 hk
  obtain ⟨s0, r1, r2⟩ := hv.run
  have hnf := (C86_no_fault (h.inside hv) hC hwin r1 r2).1
  refine ⟨?_, ?_⟩
  · rintro (⟨i, m, f, hm, hf⟩ | hf)
    · obtain ⟨a, ha, _⟩ := h.calm (topic := topic) hC hv (List.mem_of_getElem? hm) k.wg
      rw [ha] at hf
      simp at hf
    · exact hnf hf
  · by_cases hd : k.sys.Drained
    · by_cases htk : k.taken < k.w.out.length
      · left
        obtain ⟨a, ha, hr⟩ := h.calm (topic := topic) hC hv (List.getElem_mem htk) k.wg
        exact ⟨_, .take hd.1 hd.2.1 (List.getElem?_eq_getElem htk) ha hr⟩
      · have htk : k.taken = k.w.out.length := by have := hv.taken; omega
        by_cases hw : ∃ t, WState.Step k.w t
        · left
          obtain ⟨t, ht⟩ := hw
          refine ⟨_, .part ht ?_⟩
          rw [htk]
          unfold messagesCap
          cases ht <;> simp [WState.upd]
        · right
          exact ⟨hd, htk, fun i hi => C67_all_partial hv.w h.warm (fun t ht => hw ⟨t, ht⟩) i hi⟩
    · left
      obtain ⟨s, hs⟩ := (k.sys.progress (C := C) (env := env) (o := o) hd).resolve_right hnf
      exact ⟨_, .inner hs⟩

/-- **C111**, while running: if in every partition no header comes before the messages of its parent, then at every moment, under any schedule, the
head of the subscribers is the first-handled block of maximal weight among those handled. -/
theorem C111_head (h : KafkaTree C cfg root tree np start msgs) (hC : C.Lawful) (hwin : (tree.length : Int) ≤ 2 * cfg.reorgThreshold)
    (hf : ∀ i, i < np → HeadersFollow root tree (msgs i)) {k0 k : KSys} (h0 : KSys.start cfg np start msgs = .ok k0)
    (hk : KCausal C env o topic k0 k) (hne : blocksOf k.sys.ops ≠ []) : FirstHeaviest (blocksOf k.sys.ops) k.sys.omp.lastHash := by
  have hv := kinv_steps h0 hk.steps
  obtain ⟨s0, r1, r2⟩ := kcausal_run h0 hk
  exact (C86_head (h.inside hv) hC hwin (headers_follow_merged h hC hv hf) r1 r2 hne).1

/-- **C111**: when a Kafka consumer has come to rest, the subscribers, having applied all updates, hold a chain of blocks exactly as produced that
ends in a heaviest block of the tree. -/
theorem C111_end (h : KafkaTree C cfg root tree np start msgs) (hC : C.Lawful) (hwin : (tree.length : Int) ≤ 2 * cfg.reorgThreshold)
    (hf : ∀ i, i < np → HeadersFollow root tree (msgs i)) {k0 k : KSys} (h0 : KSys.start cfg np start msgs = .ok k0)
    (hk : KCausal C env o topic k0 k) (hstuck : ∀ k', ¬ KSys.Step C env o topic k k') (hg : Heard env k.sys) :
    ∃ base chain top, Replays cfg.lastHash k.sys.omp.log base chain ∧ Linked base chain ∧ endOf base chain = top.args.hash ∧
      top ∈ tree ∧ (∀ sb ∈ tree, sb.args.weight ≤ top.args.weight) ∧
      ∀ b ∈ chain, ∃ sb ∈ tree, Exact cfg.tracked sb.schema sb.args sb.subs b := by
  have hv := kinv_steps h0 hk.steps
  obtain ⟨s0, r1, r2⟩ := kcausal_run h0 hk
  obtain ⟨hd, htk, hall⟩ :=
    (((C111_progress (env := env) (o := o) (topic := topic) h hC hwin h0).2 k hk.steps).2).resolve_left (fun ⟨k', hk'⟩ => hstuck k' hk')
  refine C86_end (h.inside hv) hC hwin (headers_follow_merged h hC hv hf) ?_ r1 r2 hd hg
  intro s hs x hx
  obtain ⟨i, hi, m, hm, e1, e2⟩ := h.all s hs x hx
  refine ⟨m, List.mem_filter.mpr ⟨?_, ?_⟩, e1, e2⟩
  · rw [← hall i hi] at hm
    obtain ⟨⟨j, y⟩, hy, rfl⟩ := List.mem_map.mp hm
    unfold KSys.seen
    rw [htk, List.take_length]
    exact List.mem_map.mpr ⟨(j, y), (List.mem_filter.mp hy).1, rfl⟩
  · simpa using copy_ordinary hC (h.correct s hs) e2

end

/-! ## With the producer -/

/-- From a Kafka producer to the one partition of a topic: the producer is given the blocks of a tree, parents first; in the partition are the messages it
handed over, in this order, between heartbeats and pings. -/
structure Spec.KafkaTreeLink (C : Codec) (E : ErrSched) (dp : Producer) (root : BlockArgs × (Hash → SubArgs))
    (bs : List (BlockArgs × (Hash → SubArgs))) (kp : KP) (cfg : Config) (start : Int) (ms : List RMsg) : Prop where
  publishes : Publishes C E (newKP dp) bs kp
  wf : ∀ b ∈ bs, WellFormed dp.schema b.1 b.2
  tree : HeaderTree cfg (givenBlock dp root) (bs.map (givenBlock dp))
  first : ∀ l1 b l2, bs = l1 ++ b :: l2 → b = root ∨ ∃ p ∈ l1, p.1.hash = b.1.parentHash
  stored : (ms.filter (fun r => decide (r.key ≠ [] ∧ r.key.head? ≠ some PingType))).map (fun r => (⟨r.key, r.value⟩ : Msg)) = kp.sent.map Prod.snd
  warm : ∃ m ∈ ms, start ≤ m.offset

variable {E : ErrSched} {dp : Producer} {root : BlockArgs × (Hash → SubArgs)} {bs : List (BlockArgs × (Hash → SubArgs))} {kp : KP} {cfg : Config}
  {start : Int} {ms : List RMsg}

theorem flatMap_split {α β : Type} {f : α → List β} {c : List α} {A : List β} {x : β} {B : List β} (h : c.flatMap f = A ++ x :: B) :
    ∃ c1 s c2, c = c1 ++ s :: c2 ∧ x ∈ f s ∧ ∀ p ∈ c1, ∀ y ∈ f p, y ∈ A := by
  induction c generalizing A with
  | nil => simp at h
  | cons a c ih =>
    rw [List.flatMap_cons] at h
    rcases List.append_eq_append_iff.mp h with ⟨u, hu1, hu2⟩ | ⟨u, hu1, hu2⟩
    · obtain ⟨c1, s, c2, rfl, h2, h3⟩ := ih hu2
      refine ⟨a :: c1, s, c2, rfl, h2, ?_⟩
      intro p hp y hy
      rw [hu1]
      rcases List.mem_cons.mp hp with rfl | hp
      · simp [hy]
      · simp [h3 p hp y hy]
    · rcases u with _ | ⟨y, u⟩
      · simp only [List.append_nil, List.nil_append] at hu1 hu2
        obtain ⟨c1, s, c2, rfl, h2, h3⟩ := ih (A := []) hu2.symm
        refine ⟨a :: c1, s, c2, rfl, h2, ?_⟩
        intro p hp y hy
        rcases List.mem_cons.mp hp with rfl | hp
        · rw [← hu1]; exact hy
        · exact absurd (h3 p hp y hy) (by simp)
      · simp only [List.cons_append, List.cons.injEq] at hu2
        obtain ⟨rfl, -⟩ := hu2
        exact ⟨[], a, c, rfl, by rw [hu1]; simp, by simp⟩

/-- The blocks as sent, and where their messages are. -/
theorem Spec.KafkaTreeLink.feedOrder (h : KafkaTreeLink C E dp root bs kp cfg start ms) (hC : C.Lawful) :
    ∃ (tree : List SentBlock) (r : SentBlock), tree.map (fun s => (s.args, s.subs)) = bs ∧ (∀ s ∈ tree, s.schema = dp.schema) ∧
      KafkaTree C cfg r tree 1 (fun _ => start) (fun _ => ms) ∧ kp.sent.map Prod.snd = tree.flatMap (·.msgs) ∧ HeadersFollow r tree ms := by
  have hhash : (bs.map (givenBlock dp)).map (·.args.hash) = bs.map (·.1.hash) := by simp [givenBlock, Function.comp_def]
  have hnd := (List.nodup_cons.mp h.tree.hashes)
  rw [hhash] at hnd
  obtain ⟨_, _, _, tree, h1, h2, h3⟩ := publishes_order h.publishes hnd.2
  have hmem : ∀ s ∈ tree, (s.args, s.subs) ∈ bs := fun s hs => by rw [← h1]; exact List.mem_map.mpr ⟨s, hs, rfl⟩
  have hof : ∀ b ∈ bs, ∃ s ∈ tree, (s.args, s.subs) = b := fun b hb => by rw [← h1] at hb; exact List.mem_map.mp hb
  have hth : tree.map (·.args.hash) = bs.map (·.1.hash) := by rw [← h1]; simp [Function.comp_def]
  have hinj : ∀ s s', s ∈ tree → s' ∈ tree → s.args.hash = s'.args.hash → s = s' := by
    intro s s' hs hs' e
    have hf := find_hash (by rw [hth]; exact hnd.2) hs
    have hf' := find_hash (by rw [hth]; exact hnd.2) hs'
    rw [e, hf'] at hf
    exact (Option.some.inj hf).symm
  have hbinj : ∀ b b', b ∈ bs → b' ∈ bs → b.1.hash = b'.1.hash → b = b' := by
    intro b b' hb hb' e
    obtain ⟨s, hs, rfl⟩ := hof b hb
    obtain ⟨s', hs', rfl⟩ := hof b' hb'
    rw [hinj s s' hs hs' e]
  have hcorrect : ∀ s ∈ tree, s.Correct C := by
    intro s hs
    refine ⟨(h2 s hs).2, ?_⟩
    rw [(h2 s hs).1]
    exact h.wf _ (hmem s hs)
  obtain ⟨b0, hb0, e0⟩ := List.mem_map.mp h.tree.mem
  obtain ⟨r, hr, er⟩ := hof b0 hb0
  have ha0 : b0.1 = root.1 := by injection e0
  have hs0 : b0.2 = root.2 := by injection e0
  have hrb : b0 = root := Prod.ext ha0 hs0
  subst hrb
  have hra : r.args = b0.1 := by rw [← er]
  have hH : HeaderTree cfg r tree := by
    have hT := h.tree
    refine ⟨hr, by rw [hra]; exact hT.hash, by rw [hra]; exact hT.weight, by rw [hra]; exact hT.heavy, ?_, ?_, by rw [hth, ← hhash]; exact hT.hashes, ?_⟩
    · rw [hth, hra, ← hhash]; exact hT.low
    · intro s hs
      rcases hT.parents (givenBlock dp (s.args, s.subs)) (List.mem_map.mpr ⟨_, hmem s hs, rfl⟩) with e | ⟨p, hp, e1, e2, e3⟩
      · have he : s.args = b0.1 := by injection e
        exact .inl (hinj s r hs hr (by rw [he, hra]))
      · obtain ⟨b, hb, rfl⟩ := List.mem_map.mp hp
        obtain ⟨q, hq, rfl⟩ := hof b hb
        exact .inr ⟨q, hq, e1, e2, e3⟩
    · intro s hs x hx
      exact hT.whitelist (givenBlock dp (s.args, s.subs)) (List.mem_map.mpr ⟨_, hmem s hs, rfl⟩) x hx
  refine ⟨tree, r, h1, fun s hs => (h2 s hs).1, ⟨hH, hcorrect, ?_, ?_, fun _ _ => h.warm⟩, h3, ?_⟩
  · intro i _ m hm
    by_cases e1 : m.key = []
    · exact .inl e1
    by_cases e2 : m.key.head? = some PingType
    · exact .inr (.inl e2)
    right; right
    have : (⟨m.key, m.value⟩ : Msg) ∈ kp.sent.map Prod.snd := by
      rw [← h.stored]
      exact List.mem_map.mpr ⟨m, List.mem_filter.mpr ⟨hm, by simp [e1, e2]⟩, rfl⟩
    rw [h3] at this
    obtain ⟨s, hs, hx⟩ := List.mem_flatMap.mp this
    exact ⟨s, hs, _, hx, rfl, rfl⟩
  · intro s hs x hx
    have : x ∈ kp.sent.map Prod.snd := by rw [h3]; exact List.mem_flatMap.mpr ⟨s, hs, hx⟩
    rw [← h.stored] at this
    obtain ⟨m, hm, rfl⟩ := List.mem_map.mp this
    exact ⟨0, Nat.one_pos, m, (List.mem_filter.mp hm).1, rfl, _, hx, rfl, rfl⟩
  · intro l1 m l2 e ht s hs hb
    have hne : m.key ≠ [] := by intro e; rw [e] at ht; simp at ht
    have hping : m.key.head? ≠ some PingType := by rw [ht]; decide
    have hst := h.stored
    rw [e, h3, List.filter_append, List.filter_cons_of_pos (by simp [hne, hping]), List.map_append, List.map_cons] at hst
    obtain ⟨c1, s', c2, e1, e2, e3⟩ := flatMap_split hst.symm
    have hs' : s' ∈ tree := by rw [e1]; simp
    have hss : s' = s := hinj s' s hs' hs ((copy_hash hC (hcorrect s' hs') ⟨_, e2, rfl, rfl⟩).symm.trans hb)
    subst hss
    rcases h.first (c1.map (fun s => (s.args, s.subs))) (s'.args, s'.subs) (c2.map (fun s => (s.args, s.subs)))
      (by rw [← h1, e1]; simp) with e | ⟨p, hp, e4⟩
    · exact .inl (hinj s' r hs' hr (by rw [hra, ← e]))
    · obtain ⟨q, hq, rfl⟩ := List.mem_map.mp hp
      refine .inr ⟨q, by rw [e1]; simp [hq], e4, ?_⟩
      intro x hx
      obtain ⟨y, hy, rfl⟩ := List.mem_map.mp (e3 q hq x hx)
      exact ⟨y, (List.mem_filter.mp hy).1, rfl, _, hx, rfl, rfl⟩

theorem Spec.KafkaTreeLink.feed (h : KafkaTreeLink C E dp root bs kp cfg start ms) (hC : C.Lawful) :
    ∃ (tree : List SentBlock) (r : SentBlock), tree.map (fun s => (s.args, s.subs)) = bs ∧ (∀ s ∈ tree, s.schema = dp.schema) ∧
      KafkaTree C cfg r tree 1 (fun _ => start) (fun _ => ms) ∧ HeadersFollow r tree ms := by
  obtain ⟨tree, r, h1, h2, h3, _, h4⟩ := h.feedOrder hC
  exact ⟨tree, r, h1, h2, h3, h4⟩

/-- **C111**, from end to end: the blocks of a tree that a Kafka producer was given, parents first, each call returning nil, and that are stored in one
partition, are followed by the subscribers of a Kafka consumer: no goroutine faults or waits for ever, the head is at every moment the
first-handled heaviest block, and at rest they hold a chain of blocks as produced that ends in a heaviest block. -/
theorem C111_published (h : KafkaTreeLink C E dp root bs kp cfg start ms) (hC : C.Lawful) (hwin : (bs.length : Int) ≤ 2 * cfg.reorgThreshold)
    {k0 k : KSys} (h0 : KSys.start cfg 1 (fun _ => start) (fun _ => ms) = .ok k0) (hk : KCausal C env o topic k0 k) :
    ¬ k.Faulting C env o topic ∧ (blocksOf k.sys.ops ≠ [] → FirstHeaviest (blocksOf k.sys.ops) k.sys.omp.lastHash) ∧
    ((∀ k', ¬ KSys.Step C env o topic k k') → Heard env k.sys →
      ∃ base chain top, Replays cfg.lastHash k.sys.omp.log base chain ∧ Linked base chain ∧ endOf base chain = top.1.hash ∧
        top ∈ bs ∧ (∀ b ∈ bs, b.1.weight ≤ top.1.weight) ∧ ∀ x ∈ chain, ∃ b ∈ bs, Exact cfg.tracked dp.schema b.1 b.2 x) := by
  obtain ⟨tree, r, h1, h2, h3, h4⟩ := h.feed hC
  have hlen : tree.length = bs.length := by rw [← h1]; simp
  have hwin' : (tree.length : Int) ≤ 2 * cfg.reorgThreshold := by rw [hlen]; exact hwin
  refine ⟨((C111_progress (env := env) (o := o) (topic := topic) h3 hC hwin' h0).2 k hk.steps).1, C111_head h3 hC hwin' (fun _ _ => h4) h0 hk, ?_⟩
  intro hstuck hg
  obtain ⟨base, chain, top, g1, g2, g3, g4, g5, g6⟩ := C111_end h3 hC hwin' (fun _ _ => h4) h0 hk hstuck hg
  refine ⟨base, chain, (top.args, top.subs), g1, g2, g3, by rw [← h1]; exact List.mem_map.mpr ⟨top, g4, rfl⟩, ?_, ?_⟩
  · intro b hb
    rw [← h1] at hb
    obtain ⟨s, hs, rfl⟩ := List.mem_map.mp hb
    exact g5 s hs
  · intro x hx
    obtain ⟨sb, hsb, he⟩ := g6 x hx
    rw [h2 sb hsb] at he
    exact ⟨(sb.args, sb.subs), by rw [← h1]; exact List.mem_map.mpr ⟨sb, hsb, rfl⟩, he⟩

/-! ## Example: a fork in one partition -/

/-- A producer that was given `exBlock`, `exNext` and its heavier fork. -/
def exKP3 : KP := exPublish (exPublish (exPublish (newKP exProducer) exBlock) exNext) exForkBlock

theorem exPublishes3 : Publishes Avro.codec (fun _ => none) (newKP exProducer) ([(exBlock, exSubs)] ++ [(exNext, exSubs)] ++ [(exForkBlock, exSubs)]) exKP3 := by
  have pair : ∀ {α : Type} {r : α × Option Err}, r.2.isNone = true → r = (r.1, none) := by
    rintro α ⟨x, y⟩ h
    cases y with
    | none => rfl
    | some e => simp at h
  have hl : ∀ a : BlockArgs, a.batches = exBlock.batches → ∀ x, x ∈ [exHash 9] ↔ ∃ path, a.batches.get? path = some x := by
    intro a e x
    rw [e]
    simp only [exBlock, List.mem_singleton, GMap.get?_insert]
    constructor
    · rintro rfl; exact ⟨str "state/sub", by simp⟩
    · rintro ⟨path, h⟩
      split at h
      · exact (Option.some.inj h).symm
      · simp at h
  refine .block (l := [exHash 9]) (o := .plain) (o' := .plain) (.block (l := [exHash 9]) (o := .plain) (o' := .plain)
    (.block (bs := []) (l := [exHash 9]) (o := .plain) (o' := .plain) .nil (pair (by decide +kernel))
    (.sub (o := .plain) (o' := .plain) (l := []) .nil (by simp) (pair (by decide +kernel))) (hl _ rfl))
    (pair (by decide +kernel)) (.sub (o := .plain) (o' := .plain) (l := []) .nil (by simp) (pair (by decide +kernel))) (hl _ rfl))
    (pair (by decide +kernel)) (.sub (o := .plain) (o' := .plain) (l := []) .nil (by simp) (pair (by decide +kernel))) (hl _ rfl)

/-- A ping, a heartbeat and everything that was sent. -/
def exForkPart : List RMsg := recv (⟨PingType :: (exHash 5).bytes, []⟩ :: ⟨[], []⟩ :: exKP3.sent.map Prod.snd)

theorem exTreeLink : KafkaTreeLink Avro.codec (fun _ => none) exProducer (exBlock, exSubs)
    ([(exBlock, exSubs)] ++ [(exNext, exSubs)] ++ [(exForkBlock, exSubs)]) exKP3 exForkCfg 0 exForkPart := by
  refine ⟨exPublishes3, ?_, ?_, ?_, ?_, ?_⟩
  · intro b hb
    simp only [List.cons_append, List.nil_append, List.mem_cons, List.not_mem_nil, or_false] at hb
    rcases hb with rfl | rfl | rfl
    · exact exBlock_wf
    · exact exNext_wf
    · exact exForkBlock_wf
  · refine ⟨by simp, rfl, rfl, show (0 : Int) < 300 by decide, ?_, ?_, ?_, ?_⟩
    · show exHash 2 ∉ [exHash 1, exHash 3, exHash 5]
      decide
    · intro s hs
      simp only [List.cons_append, List.nil_append, List.map_cons, List.map_nil, List.mem_cons, List.not_mem_nil, or_false] at hs
      rcases hs with rfl | rfl | rfl
      · exact .inl rfl
      · exact .inr ⟨givenBlock exProducer (exBlock, exSubs), by simp, rfl, rfl, show (300 : Int) < 310 by decide⟩
      · exact .inr ⟨givenBlock exProducer (exBlock, exSubs), by simp, rfl, rfl, show (300 : Int) < 320 by decide⟩
    · show [Hash.zero, exHash 1, exHash 3, exHash 5].Nodup
      decide
    · intro s _ x hx
      simp [exForkCfg, exCfg] at hx
  · intro l1 b l2 e
    rcases l1 with _ | ⟨x, l1⟩
    · simp at e; exact .inl e.1.symm
    · simp at e
      obtain ⟨rfl, e⟩ := e
      right
      refine ⟨_, List.mem_cons_self, ?_⟩
      have : b ∈ [(exNext, exSubs), (exForkBlock, exSubs)] := by rw [e]; simp
      simp only [List.mem_cons, List.not_mem_nil, or_false] at this
      rcases this with rfl | rfl <;> rfl
  · decide +kernel
  · refine ⟨_, List.mem_cons_self, ?_⟩
    decide

/-- C111: an execution that has come to rest exists, and its subscribers are at the fork. -/
example : ∃ k0 k base chain, KSys.start exForkCfg 1 (fun _ => 0) (fun _ => exForkPart) = .ok k0 ∧ KCausal Avro.codec exEnv .plain (str "d") k0 k ∧
    (∀ k', ¬ KSys.Step Avro.codec exEnv .plain (str "d") k k') ∧ Heard exEnv k.sys ∧
    Replays exForkCfg.lastHash k.sys.omp.log base chain ∧ endOf base chain = exForkBlock.hash := by
  have hst : ∃ k0, KSys.start exForkCfg 1 (fun _ => 0) (fun _ => exForkPart) = .ok k0 := ⟨_, rfl⟩
  obtain ⟨k0, h0⟩ := hst
  have hev : ∀ t, exEnv.evict t = [] := fun _ => rfl
  have : ∃ k, KCausal Avro.codec exEnv .plain (str "d") k0 k ∧ ∀ k', ¬ KSys.Step Avro.codec exEnv .plain (str "d") k k' := by
    apply Classical.byContradiction
    intro hno
    have hno : ∀ k, KCausal Avro.codec exEnv .plain (str "d") k0 k → ∃ k', KSys.Step Avro.codec exEnv .plain (str "d") k k' := by
      intro k hk
      apply Classical.byContradiction
      intro h
      exact hno ⟨k, hk, fun k' hk' => h ⟨k', hk'⟩⟩
    let f : Nat → { k : KSys // KCausal Avro.codec exEnv .plain (str "d") k0 k } := fun n => Nat.rec ⟨k0, .refl⟩
      (fun _ k => ⟨Classical.choose (hno k.1 k.2), .step k.2 (Classical.choose_spec (hno k.1 k.2)) (fun _ t _ n hn => by rw [hev] at hn; simp at hn)⟩) n
    exact k_no_endless (fun n => (f n).1) (fun n => Classical.choose_spec (hno (f n).1 (f n).2))
  obtain ⟨k, hk, hstuck⟩ := this
  have hg : Heard exEnv k.sys := fun t _ n hn => by rw [hev] at hn; simp at hn
  obtain ⟨base, chain, top, g1, -, g3, g4, g5, -⟩ :=
    (C111_published exTreeLink Avro.codec_lawful (show (3 : Int) ≤ 2 * 2 by decide) h0 hk).2.2 hstuck hg
  refine ⟨k0, k, base, chain, h0, hk, hstuck, hg, g1, ?_⟩
  rw [g3]
  have h320 := g5 (exForkBlock, exSubs) (by simp)
  simp only [List.cons_append, List.nil_append, List.mem_cons, List.not_mem_nil, or_false] at g4
  rcases g4 with rfl | rfl | rfl
  · exact absurd h320 (show ¬ (320 : Int) ≤ 300 by decide)
  · exact absurd h320 (show ¬ (320 : Int) ≤ 310 by decide)
  · rfl

/-! ## With several partitions the order of production is not enough -/

/-- A block without content. -/
def bareBlock (hash parent : Nat) (number weight : Int) : BlockArgs :=
  ⟨number, exHash hash, exHash parent, weight, GMap.empty, GMap.empty, GMap.empty⟩

/-- Its messages. -/
def bareMsgs (a : BlockArgs) : List Msg := match (addBlock' Avro.codec .plain exProducer a).2 with
  | .ok tm => flat tm
  | .error _ => []

/-- The block as sent. -/
def bareSent (hash parent : Nat) (number weight : Int) : SentBlock :=
  ⟨exProducer.schema, bareBlock hash parent number weight, exSubs, bareMsgs (bareBlock hash parent number weight)⟩

theorem bare_correct {hash parent : Nat} {number weight : Int} (hw : 0 ≤ weight) (hn : InInt64 number) (hl : LenOK (natBytes weight.natAbs))
    (hok : (match (addBlock' Avro.codec .plain exProducer (bareBlock hash parent number weight)).2 with | .ok _ => true | .error _ => false) = true) :
    (bareSent hash parent number weight).Correct Avro.codec := by
  refine ⟨?_, ?_⟩
  · show Produced _ _ _ _ (bareMsgs (bareBlock hash parent number weight))
    unfold bareMsgs
    generalize hr : addBlock' Avro.codec .plain exProducer (bareBlock hash parent number weight) = r at hok
    obtain ⟨p', r⟩ := r
    cases r with
    | error e => simp at hok
    | ok tm =>
      refine Spec.SentBy.produced ⟨.plain, exProducer, p', tm, fun _ => [], rfl, hr, ?_, ?_⟩
      · intro path id h
        simp [bareSent, bareBlock, GMap.get?_empty] at h
      · intro m; simp
  · have hu : (bareBlock hash parent number weight).updates = GMap.empty := rfl
    have hd : (bareBlock hash parent number weight).deletes = GMap.empty := rfl
    have hb : (bareBlock hash parent number weight).batches = GMap.empty := rfl
    have hk : ∀ (V : Type) (k : GoStr), k ∉ (GMap.empty : GMap GoStr V).keys := by intro V k; simp [GMap.keys, GMap.empty]
    have hcnt : ∀ x, ¬ Counted exProducer.schema (GMap.empty : GMap GoStr Bytes) (GMap.empty : GMap GoStr Unit) x := by
      intro x h
      unfold Counted at h
      simp [GMap.keys, GMap.empty] at h
    show WellFormed exProducer.schema (bareBlock hash parent number weight) exSubs
    refine ⟨⟨hw, ?_, ?_, ?_, ?_, ?_, ?_, ?_, ?_, hn, hl, ?_, ?_, ?_, ?_, ?_, ?_⟩, ?_⟩
    · intro k pre topic h; rw [hu, hd] at h; rcases h with h | h <;> exact absurd h (hk _ _)
    · intro x y h; exact absurd h (hcnt x)
    · intro k _ h; exact absurd h (hk _ _)
    · intro path id k h; rw [hb, GMap.get?_empty] at h; simp at h
    · intro path id k _ _ h; rw [hb, GMap.get?_empty] at h; simp at h
    · intro path id k h; rw [hb, GMap.get?_empty] at h; simp at h
    · rw [hu, hd]; decide
    · intro path id h; rw [hb, GMap.get?_empty] at h; simp at h
    · rw [hb]; decide
    · intro k v h; rw [hu, GMap.get?_empty] at h; simp at h
    · intro k h; exact absurd h (hk _ _)
    · intro k h; exact absurd h (hk _ _)
    · intro path id k v h; rw [hb, GMap.get?_empty] at h; simp at h
    · intro path id h; rw [hb, GMap.get?_empty] at h; simp at h
    · intro k v h; rw [hu, GMap.get?_empty] at h; simp at h

/-- The tree of `exForks`, parents first: 2-3 on block 1; 6 on block 1 with the children 4 and 5; 7 on 4; 8-9 on 5. -/
def exNine : List SentBlock :=
  [bareSent 1 0 0 5, bareSent 2 1 1 6, bareSent 3 2 2 7, bareSent 6 1 1 6, bareSent 4 6 2 7, bareSent 5 6 2 7, bareSent 7 4 3 8, bareSent 8 5 3 8,
    bareSent 9 8 4 9]

/-- Block 6 is in partition 0, all others are in partition 1, from where six are read before partition 0 is. -/
def exSlow : List (Nat × RMsg) :=
  [(1, bareSent 1 0 0 5), (1, bareSent 2 1 1 6), (1, bareSent 3 2 2 7), (1, bareSent 4 6 2 7), (1, bareSent 5 6 2 7), (1, bareSent 7 4 3 8),
    (0, bareSent 6 1 1 6), (1, bareSent 8 5 3 8), (1, bareSent 9 8 4 9)].flatMap (fun e => (e.2.msgs.map (fun m => (e.1, at_ m 0 (str "s")))))

/-- At the end of each partition there is a heartbeat, which is the first message the consumer had not read before. -/
def exSlowParts (i : Nat) : List RMsg := forwarded exSlow i ++ [⟨[], [], 1, str "s"⟩]

theorem exNine_correct : ∀ s ∈ exNine, s.Correct Avro.codec := by
  intro s hs
  simp only [exNine, List.mem_cons, List.not_mem_nil, or_false] at hs
  rcases hs with rfl | rfl | rfl | rfl | rfl | rfl | rfl | rfl | rfl <;>
    exact bare_correct (by decide) (by decide) (by decide +kernel) (by decide +kernel)

theorem exNine_tree : HeaderTree exOCfg (bareSent 1 0 0 5) exNine := by
  refine ⟨by simp [exNine], rfl, rfl, by decide, by decide +kernel, ?_, by decide +kernel, ?_⟩
  · intro s hs
    simp only [exNine, List.mem_cons, List.not_mem_nil, or_false] at hs
    rcases hs with rfl | rfl | rfl | rfl | rfl | rfl | rfl | rfl | rfl
    · exact .inl rfl
    · exact .inr ⟨bareSent 1 0 0 5, by simp [exNine], rfl, rfl, by decide⟩
    · exact .inr ⟨bareSent 2 1 1 6, by simp [exNine], rfl, rfl, by decide⟩
    · exact .inr ⟨bareSent 1 0 0 5, by simp [exNine], rfl, rfl, by decide⟩
    · exact .inr ⟨bareSent 6 1 1 6, by simp [exNine], rfl, rfl, by decide⟩
    · exact .inr ⟨bareSent 6 1 1 6, by simp [exNine], rfl, rfl, by decide⟩
    · exact .inr ⟨bareSent 4 6 2 7, by simp [exNine], rfl, rfl, by decide⟩
    · exact .inr ⟨bareSent 5 6 2 7, by simp [exNine], rfl, rfl, by decide⟩
    · exact .inr ⟨bareSent 8 5 3 8, by simp [exNine], rfl, rfl, by decide⟩
  · intro s _ x hx
    simp [exOCfg, exCfg] at hx

theorem exNine_kafka : KafkaTree Avro.codec exOCfg (bareSent 1 0 0 5) exNine 2 (fun _ => 1) exSlowParts := by
  have hsrc : ∀ e ∈ exSlow, ∃ s ∈ exNine, Copy s.msgs e.2 := by
    have : exSlow.all (fun e => exNine.any (fun s => s.msgs.any (fun x => e.2.key == x.key && e.2.value == x.value))) = true := by decide +kernel
    intro e he
    have := List.all_eq_true.mp this e he
    obtain ⟨s, hs, h⟩ := List.any_eq_true.mp this
    obtain ⟨x, hx, h⟩ := List.any_eq_true.mp h
    rw [Bool.and_eq_true, beq_iff_eq, beq_iff_eq] at h
    exact ⟨s, hs, x, hx, h⟩
  refine ⟨exNine_tree, exNine_correct, ?_, ?_, ?_⟩
  · intro i _ m hm
    rcases List.mem_append.mp hm with hm | hm
    · obtain ⟨e, he, rfl⟩ := List.mem_map.mp hm
      exact .inr (.inr (hsrc e (List.mem_filter.mp he).1))
    · simp only [List.mem_singleton] at hm
      subst hm
      exact .inl rfl
  · have : exNine.all (fun s => s.msgs.all (fun x => exSlow.any (fun e => decide (e.1 < 2) && (e.2.key == x.key && e.2.value == x.value)))) = true := by
      decide +kernel
    intro s hs x hx
    have := List.all_eq_true.mp (List.all_eq_true.mp this s hs) x hx
    obtain ⟨e, he, h⟩ := List.any_eq_true.mp this
    rw [Bool.and_eq_true, Bool.and_eq_true, beq_iff_eq, beq_iff_eq, decide_eq_true_iff] at h
    exact ⟨e.1, h.1, e.2, List.mem_append_left _ (forwarded_of_mem he), h.2.1, x, hx, h.2⟩
  · intro i _
    exact ⟨_, List.mem_append_right _ (List.mem_singleton.mpr rfl), by decide⟩

/-- Messages before the start offsets are forwarded at once, in any order. -/
theorem early_forwarded {n : Nat} {start : Nat → Int} {rest : Nat → List RMsg} {k0 : KSys} (sched : List (Nat × RMsg)) (pre : List (Nat × RMsg)) (k : KSys)
    (hw : k.w = ⟨n, fun i => ⟨start i, forwarded sched i ++ rest i, .cold⟩, pre⟩) (hin : ∀ e ∈ sched, e.1 < n ∧ e.2.offset < start e.1)
    (hroom : pre.length + sched.length ≤ k.taken + messagesCap) (hk : KCausal C env o topic k0 k) :
    KCausal C env o topic k0 { k with w := ⟨n, fun i => ⟨start i, rest i, .cold⟩, pre ++ sched⟩ } := by
  induction sched generalizing pre k with
  | nil =>
    have : k = { k with w := ⟨n, fun i => ⟨start i, rest i, .cold⟩, pre ++ []⟩ } := by
      cases k; simp only [] at hw; subst hw; simp [forwarded]
    rw [this] at hk
    exact hk
  | cons e sched ih =>
    obtain ⟨i, m⟩ := e
    have hfi : forwarded ((i, m) :: sched) i = m :: forwarded sched i := by simp [forwarded]
    have hfj : ∀ j, j ≠ i → forwarded ((i, m) :: sched) j = forwarded sched j := by intro j hj; simp [forwarded, Ne.symm hj]
    have hst : WState.Step k.w ⟨n, fun j => ⟨start j, forwarded sched j ++ rest j, .cold⟩, pre ++ [(i, m)]⟩ := by
      have := WState.Step.early (s := k.w) (i := i) (m := m) (ms := forwarded sched i ++ rest i) (by rw [hw]; exact (hin _ List.mem_cons_self).1)
        (by rw [hw]; simp [hfi]) (by rw [hw]) (by rw [hw]; exact (hin (i, m) List.mem_cons_self).2)
      have e : ({ k.w.upd i ⟨(k.w.part i).start, forwarded sched i ++ rest i, .cold⟩ with out := k.w.out ++ [(i, m)] } : WState) =
          ⟨n, fun j => ⟨start j, forwarded sched j ++ rest j, .cold⟩, pre ++ [(i, m)]⟩ := by
        rw [hw]
        simp only [WState.upd, WState.mk.injEq, true_and, and_true]
        funext j
        by_cases hj : j = i
        · subst hj; simp
        · simp [hj, hfj j hj]
      rwa [e] at this
    have hk1 : KCausal C env o topic k0 { k with w := ⟨n, fun j => ⟨start j, forwarded sched j ++ rest j, .cold⟩, pre ++ [(i, m)]⟩ } := by
      refine .step hk (.part hst ?_) (fun h => absurd rfl h)
      simp only [List.length_append, List.length_cons, List.length_nil] at hroom ⊢
      omega
    have := ih (pre ++ [(i, m)]) _ rfl (fun e he => hin e (List.mem_cons_of_mem _ he))
      (by simp only [List.length_append, List.length_cons, List.length_nil] at hroom ⊢; omega) hk1
    simpa using this

/-- Every execution can be continued until it is at rest. -/
theorem k_rests (hev : ∀ t, env.evict t = []) {k0 k1 : KSys} (h1 : KCausal C env o topic k0 k1) :
    ∃ k, KSys.Steps C env o topic k1 k ∧ KCausal C env o topic k0 k ∧ ∀ k', ¬ KSys.Step C env o topic k k' := by
  apply Classical.byContradiction
  intro hno
  have hno : ∀ k, KSys.Steps C env o topic k1 k ∧ KCausal C env o topic k0 k → ∃ k', KSys.Step C env o topic k k' := by
    intro k hk
    apply Classical.byContradiction
    intro h
    exact hno ⟨k, hk.1, hk.2, fun k' hk' => h ⟨k', hk'⟩⟩
  let f : Nat → { k : KSys // KSys.Steps C env o topic k1 k ∧ KCausal C env o topic k0 k } := fun n => Nat.rec ⟨k1, .refl, h1⟩
    (fun _ k => ⟨Classical.choose (hno k.1 k.2), .step k.2.1 (Classical.choose_spec (hno k.1 k.2)),
      .step k.2.2 (Classical.choose_spec (hno k.1 k.2)) (fun _ t _ n hn => by rw [hev] at hn; simp at hn)⟩) n
  exact k_no_endless (fun n => (f n).1) (fun n => Classical.choose_spec (hno (f n).1 (f n).2))

theorem ksteps_out {k k' : KSys} (h : KSys.Steps C env o topic k k') : k.w.out <+: k'.w.out := by
  induction h with
  | refl => exact List.prefix_refl _
  | step _ hst ih =>
    refine ih.trans ?_
    cases hst with
    | part hw _ => exact wstate_out hw
    | take => exact List.prefix_refl _
    | inner => exact List.prefix_refl _

/-- **C111**, the order within the partitions is needed: if a topic has two partitions, a producer that sends parents first and a broker that keeps the
order within each partition do not suffice. All blocks arrive, the consumer comes to rest, and its head is not a heaviest block. -/
theorem C111_order_needed : ¬ ∀ (C : Codec) (env : Env) (o : MapOrder) (topic : GoStr) (cfg : Config) (root : SentBlock) (tree : List SentBlock) (np : Nat)
    (start : Nat → Int) (msgs : Nat → List RMsg) (k0 k : KSys), C.Lawful → KafkaTree C cfg root tree np start msgs →
    (tree.length : Int) ≤ 2 * cfg.reorgThreshold →
    (∀ l1 s l2, tree = l1 ++ s :: l2 → s = root ∨ ∃ p ∈ l1, p.args.hash = s.args.parentHash) →
    (∀ i, i < np → List.Sublist (((msgs i).filter (fun r => decide (r.key ≠ []))).map (fun r => (⟨r.key, r.value⟩ : Msg))) (tree.flatMap (·.msgs))) →
    KSys.start cfg np start msgs = .ok k0 → KCausal C env o topic k0 k → (∀ k', ¬ KSys.Step C env o topic k k') → Heard env k.sys →
    ∃ top ∈ tree, k.sys.omp.lastHash = top.args.hash ∧ ∀ sb ∈ tree, sb.args.weight ≤ top.args.weight := by
  intro hclaim
  have hst : ∃ k0, KSys.start exOCfg 2 (fun _ => 1) exSlowParts = .ok k0 := ⟨_, rfl⟩
  obtain ⟨k0, h0⟩ := hst
  have hev : ∀ t, exEnv.evict t = [] := fun _ => rfl
  have hwin : (exNine.length : Int) ≤ 2 * exOCfg.reorgThreshold := by decide
  have hk0 : k0.w = ⟨2, fun i => ⟨1, forwarded exSlow i ++ [⟨[], [], 1, str "s"⟩], .cold⟩, []⟩ := by
    unfold KSys.start at h0
    obtain ⟨s, _, h0⟩ := bind_ok.mp h0
    cases h0
    rfl
  have hin : ∀ e ∈ exSlow, e.1 < 2 ∧ e.2.offset < (1 : Int) := by
    have : exSlow.all (fun e => decide (e.1 < 2 ∧ e.2.offset < (1 : Int))) = true := by decide +kernel
    intro e he
    simpa using List.all_eq_true.mp this e he
  have hlen : exSlow.length = 9 := by decide +kernel
  have h1 := early_forwarded (C := Avro.codec) (env := exEnv) (o := .plain) (topic := str "d") (start := fun _ => 1) exSlow [] k0 hk0 hin
    (by rw [hlen]; unfold messagesCap; simp) .refl
  obtain ⟨k, hsteps, hk, hstuck⟩ := k_rests hev h1
  have hg : Heard exEnv k.sys := fun t _ n hn => by rw [hev] at hn; simp at hn
  have hv := kinv_steps h0 hk.steps
  obtain ⟨hd, htk, hall⟩ :=
    (((C111_progress (env := exEnv) (o := .plain) (topic := str "d") exNine_kafka Avro.codec_lawful hwin h0).2 k hk.steps).2).resolve_left
      (fun ⟨k', hk'⟩ => hstuck k' hk')
  -- what was dispatched
  obtain ⟨rest, hout⟩ := ksteps_out hsteps
  have hout : exSlow ++ rest = k.w.out := hout
  have hrest : ∀ e ∈ rest, e.2.key = [] := by
    rintro ⟨i, m⟩ he
    obtain ⟨hi, -⟩ := hv.source (i := i) (m := m) (by rw [← hout]; simp [he])
    have := hall i hi
    rw [← hout] at this
    have h2 : forwarded (exSlow ++ rest) i = forwarded exSlow i ++ forwarded rest i := by simp [forwarded, List.filter_append]
    rw [h2] at this
    have h3 := List.append_cancel_left this
    have := forwarded_of_mem he
    rw [h3] at this
    simp only [List.mem_singleton] at this
    subst this
    rfl
  have hseen : k.seen.filter (fun m => Ordinary m) = exSlow.map Prod.snd := by
    unfold KSys.seen
    rw [htk, List.take_length, ← hout, List.map_append, List.filter_append]
    have e1 : (rest.map Prod.snd).filter (fun m => decide (Ordinary m)) = [] := by
      rw [List.filter_eq_nil_iff]
      intro m hm
      obtain ⟨e, he, rfl⟩ := List.mem_map.mp hm
      have := hrest e he
      simp [Ordinary, this]
    rw [e1, List.append_nil, List.filter_eq_self]
    intro m hm
    obtain ⟨e, he, rfl⟩ := List.mem_map.mp hm
    have : exSlow.all (fun e => decide (Ordinary e.2)) = true := by decide +kernel
    exact List.all_eq_true.mp this e he
  -- what came of it
  obtain ⟨s0, r1, r2⟩ := hv.run
  obtain ⟨mp0, omp0, ms, ds, hn, ho, ⟨rst, g1, g2⟩, g3, g4, g5, g6⟩ := (exNine_kafka.inside hv).supplied.inside Avro.codec_lawful r1 r2
  rw [hd.1] at g2
  have hrst : rst = [] := List.map_eq_nil_iff.mp g2.symm
  subst hrst
  rw [List.append_nil, hseen] at g1
  rw [hd.2.1, hd.2.2.1] at g6
  have g6 : k.sys.mp.emitted = ds := by simpa [blocksSent] using g6
  have hcomp : (match newMP exOCfg with
      | .error _ => false
      | .ok mp0 => match mp0.run Avro.codec exEnv (exSlow.map Prod.snd) with
        | .error _ => false
        | .ok mp => match newOMP exOCfg with
          | .error _ => false
          | .ok omp0 => match omp0.run .plain (mp.emitted.map OOp.block) with
            | .error _ => false
            | .ok omp => omp.lastHash == exHash 7) = true := by decide +kernel
  rw [hn] at hcomp
  simp only [] at hcomp
  rw [g1, g3, ho] at hcomp
  simp only [] at hcomp
  rw [g6, g5] at hcomp
  have hlast : k.sys.omp.lastHash = exHash 7 := by simpa using hcomp
  obtain ⟨top, htop, e1, e2⟩ := hclaim Avro.codec exEnv .plain (str "d") exOCfg (bareSent 1 0 0 5) exNine 2 (fun _ => 1) exSlowParts k0 k
    Avro.codec_lawful exNine_kafka hwin (by
      intro l1 s l2 e
      have : (List.range 9).all (fun i => decide (i = 0) || match exNine[i]? with
        | none => true
        | some s => (exNine.take i).any (fun p => p.args.hash == s.args.parentHash)) = true := by decide +kernel
      have hi : l1.length < 9 := by
        have := congrArg List.length e
        simp [exNine] at this
        omega
      have := List.all_eq_true.mp this l1.length (List.mem_range.mpr hi)
      rw [Bool.or_eq_true] at this
      rcases this with h | h
      · have : l1 = [] := by simpa using h
        subst this
        simp [exNine] at e
        exact .inl e.1.symm
      · right
        have e3 : exNine[l1.length]? = some s := by rw [e]; simp
        have e4 : exNine.take l1.length = l1 := by rw [e]; simp
        rw [e3, e4] at h
        obtain ⟨p, hp, h⟩ := List.any_eq_true.mp h
        exact ⟨p, hp, by simpa using h⟩) (by
      intro i hi
      have h01 : i = 0 ∨ i = 1 := by omega
      rcases h01 with rfl | rfl <;> decide +kernel) h0 hk hstuck hg
  rw [hlast] at e1
  have : exNine.all (fun s => !(s.args.hash == exHash 7) || decide (s.args.weight = 8)) = true := by decide +kernel
  have := List.all_eq_true.mp this top htop
  have h8 : top.args.weight = 8 := by simpa [← e1] using this
  have h9 := e2 (bareSent 9 8 4 9) (by simp [exNine])
  rw [h8] at h9
  exact absurd h9 (by decide)

end Verif
