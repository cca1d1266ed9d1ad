import Verif.Spec.WhateverTransports
import Verif.Props.Whatever
import Verif.Props.KafkaSystem
import Verif.Props.WebsocketReorg
/-! C157: whatever a Kafka topic holds and whatever a websocket server sends, subscribers are told of one continuous chain of blocks that were received. -/
namespace Verif
open Spec

variable {C : Codec} {env : Env} {o : MapOrder} {cfg : Config} {topic : GoStr}

/-! ## Kafka -/

theorem Spec.Of.subset {P Q : RMsg → Prop} (hs : ∀ m, P m → Q m) {h : Hash} {t : UInt8} {m : RMsg} (x : Of P h t m) : Of Q h t m :=
  ⟨hs _ x.mem, x.block, x.type⟩

theorem Spec.Received.subset {cs cs' : List Call} (hs : ∀ c ∈ cs, c ∈ cs') {t : GoStr → Bool} {pb : PB} (x : Received C cs t pb) : Received C cs' t pb := by
  have hm : ∀ m, Call.msg m ∈ cs → Call.msg m ∈ cs' := fun m => hs _
  cases x with
  | whole b hm hb => exact .whole b (hs _ hm) hb
  | parts hd b hh hb hn hp hw hv hdl =>
    refine .parts hd b (hh.subset hm) hb hn hp hw (fun k v hk => ?_) (fun k hk => ?_)
    · cases hv k v hk with
      | inline r ha e => exact .inline r ha e
      | msg m x r h1 h2 h3 h4 h5 h6 h7 => exact .msg m x r (h1.subset hm) h2 h3 h4 h5 h6 h7
      | sub m u x r h1 h2 h3 h4 h5 h6 h7 => exact .sub m u x r (h1.subset hm) h2 h3 h4 h5 h6 h7
    · cases hdl k hk with
      | inline r ha e => exact .inline r ha e
      | msg m x r h1 h2 h3 h4 h5 h6 => exact .msg m x r (h1.subset hm) h2 h3 h4 h5 h6
      | sub m u x r h1 h2 h3 h4 h5 h6 h7 => exact .sub m u x r (h1.subset hm) h2 h3 h4 h5 h6 h7

theorem Spec.HashesIdentify.subset {cs cs' : List Call} (hs : ∀ c ∈ cs, c ∈ cs') (h : HashesIdentify C cs') : HashesIdentify C cs :=
  ⟨fun k p n w p' n' w' x y => h.one k p n w p' n' w' (x.mono hs) (y.mono hs), fun k p n w x => h.nonzero k p n w (x.mono hs)⟩

theorem KInv.fetched {np : Nat} {start : Nat → Int} {msgs : Nat → List RMsg} {k : KSys} (h : KInv C env o cfg np start msgs k) :
    ∀ c ∈ (k.seen.filter (fun m => Ordinary m)).map Call.msg, c ∈ fetched np msgs := by
  intro c hc
  obtain ⟨m, hm, rfl⟩ := List.mem_map.mp hc
  obtain ⟨i, hi⟩ := mem_seen (List.mem_filter.mp hm).1
  obtain ⟨h1, h2⟩ := h.source hi
  exact List.mem_flatMap.mpr ⟨i, List.mem_range.mpr h1, List.mem_map.mpr ⟨m, h2, rfl⟩⟩

/-- **C157**, Kafka: whatever the partitions of a topic hold, everything in the blocks subscribers are told of was read from it and passes the whitelist, and so was
every reorg they are notified of; if hashes identify blocks, the updates replay into one linked chain from the stored block. -/
theorem C157_kafka {np : Nat} {start : Nat → Int} {msgs : Nat → List RMsg} {k0 k : KSys} (h0 : KSys.start cfg np start msgs = .ok k0)
    (hs : KSys.Steps C env o topic k0 k) :
    (∀ added removed, .update added removed ∈ k.sys.omp.log → ∀ b ∈ added ++ removed, Received C (fetched np msgs) cfg.tracked b ∧ ¬ Forbidden cfg.whitelist b) ∧
    (∀ n h, .reorg n h ∈ k.sys.omp.log → ReorgCame C (fetched np msgs) n h) ∧
    (cfg.lastHash ≠ Hash.zero → HashesIdentify C (fetched np msgs) →
      ∃ base chain, Replays cfg.lastHash k.sys.omp.log base chain ∧ Linked base chain ∧ endOf base chain = k.sys.omp.lastHash) := by
  have hk := kinv_steps h0 hs
  obtain ⟨s0, h1, h2⟩ := hk.run
  obtain ⟨hc, _, _⟩ := C43_pipeline h1 h2
  have hsub : ∀ c ∈ k.sys.calls, c ∈ fetched np msgs := fun c hm => hk.fetched c (by rw [hc.calls]; simp [hm])
  obtain ⟨r1, r2⟩ := C156_received h1 h2
  refine ⟨fun added removed hu b hb => ⟨(r1 added removed hu b hb).1.subset hsub, (r1 added removed hu b hb).2⟩, fun n h hl => ?_, fun hz hi => ?_⟩
  · obtain ⟨m, hm, hd⟩ := r2 n h hl
    exact ⟨m, hm.subset fun _ => hsub _, hd⟩
  · exact C156_chain hz (hi.subset hk.fetched) h1 h2

/-! ## Websockets: one connection -/

theorem gather_ind {P : WsBlock → Prop} {ids : List Hash} : ∀ {pb : WsBlock} {subs : GMap Hash TSub} {miss : GMap Hash Unit}, P pb →
    (∀ pb s id, P pb → id ∈ ids → subs.get? id = some s → P (pb.merge s)) → P (gather pb subs miss ids).1 := by
  induction ids with
  | nil => intro pb subs miss h0 _; simpa [gather] using h0
  | cons id ids ih =>
    intro pb subs miss h0 hm
    unfold gather
    split
    · rename_i s hs
      refine ih (hm pb s id h0 (by simp) hs) fun qb t x hq hx ht => hm qb t x hq (by simp [hx]) ?_
      rw [GMap.get?_erase] at ht
      split at ht
      · cases ht
      · exact ht
    · exact ih h0 fun qb t x hq hx ht => hm qb t x hq (by simp [hx]) ht

theorem gather_subs_old {ids : List Hash} : ∀ {pb : WsBlock} {subs : GMap Hash TSub} {miss : GMap Hash Unit} {x : Hash} {s : TSub},
    (gather pb subs miss ids).2.1.get? x = some s → subs.get? x = some s := by
  intro pb subs miss x s h
  by_cases hx : x ∈ ids
  · rw [gather_subs_none _ _ _ _ (.inl hx)] at h; cases h
  · rwa [gather_subs_other _ _ _ _ hx] at h

theorem gather_found {ids : List Hash} : ∀ {pb : WsBlock} {subs : GMap Hash TSub} {miss : GMap Hash Unit} {x : Hash},
    (x ∈ ids → (∃ s, subs.get? x = some s) ∨ (gather pb subs miss ids).2.2.contains x = true) ∧
    (miss.contains x = true → (gather pb subs miss ids).2.2.contains x = true) := by
  induction ids with
  | nil => intro pb subs miss x; exact ⟨by simp, by simp [gather]⟩
  | cons id ids ih =>
    intro pb subs miss x
    unfold gather
    split
    · rename_i s hs
      obtain ⟨i1, i2⟩ := ih (pb := pb.merge s) (subs := subs.erase id) (miss := miss) (x := x)
      refine ⟨fun hx => ?_, i2⟩
      rcases List.mem_cons.mp hx with rfl | hx
      · exact .inl ⟨s, hs⟩
      · rcases i1 hx with ⟨t, ht⟩ | h
        · rw [GMap.get?_erase] at ht
          split at ht
          · cases ht
          · exact .inl ⟨t, ht⟩
        · exact .inr h
    · obtain ⟨i1, i2⟩ := ih (pb := pb) (subs := subs) (miss := miss.insert id ()) (x := x)
      refine ⟨fun hx => ?_, fun hx => i2 (by rw [GMap.contains_insert]; simp [hx])⟩
      rcases List.mem_cons.mp hx with rfl | hx
      · exact .inr (i2 (by rw [GMap.contains_insert]; simp))
      · exact i1 hx

theorem Spec.MadeOf.subset {read read' : List WMsg} (hs : ∀ m ∈ read, m ∈ read') {b : TBatch} {pb : PB} (h : MadeOf read b pb) : MadeOf read' b pb := by
  refine ⟨hs _ h.mem, h.number, h.weight, h.hash, h.parentHash, fun k v hk => ?_, fun k hk => ?_⟩
  · rcases h.values k v hk with e | ⟨s, p, e⟩
    · exact .inl e
    · exact .inr ⟨s, ⟨hs _ p.mem, p.mine⟩, e⟩
  · rcases h.deletes k hk with e | ⟨s, p, e⟩
    · exact .inl e
    · exact .inr ⟨s, ⟨hs _ p.mem, p.mine⟩, e⟩

theorem Spec.SameParts.less {read read' : List WMsg} (hs : ∀ m ∈ read, m ∈ read') (h : SameParts read') : SameParts read :=
  fun b b' h1 h2 => h b b' (hs _ h1) (hs _ h2)

theorem Spec.WsReceived.subset {read read' : List WMsg} (hs : ∀ m ∈ read, m ∈ read') {pb : PB} (h : WsReceived read pb) : WsReceived read' pb := by
  obtain ⟨b, h1, h2⟩ := h
  refine ⟨b, h1.subset hs, fun hp id hid => ?_⟩
  obtain ⟨s, hm, e⟩ := h2 (hp.less hs) id hid
  exact ⟨s, hs _ hm, e⟩

theorem Spec.MadeOf.merge {read : List WMsg} {b : TBatch} {x : WsBlock} (h : MadeOf read b x.pb) {s : TSub} (hp : WsPart read b s) : MadeOf read b (x.merge s).pb := by
  refine ⟨h.mem, h.number, h.weight, h.hash, h.parentHash, fun k v hk => ?_, fun k hk => ?_⟩
  · have hk : (putAll x.values s.values).get? k = some v := hk
    rw [get?_putAll] at hk
    cases e : s.values.get? k with
    | none => rw [e] at hk; rw [Option.none_or] at hk; exact h.values k v hk
    | some w => rw [e] at hk; simp at hk; subst hk; exact .inr ⟨s, hp, e⟩
  · have hk : (markAll x.deletes s.deletes).contains k = true := hk
    rcases (contains_markAll _ _ _).mp hk with e | e
    · exact .inr ⟨s, hp, e⟩
    · exact h.deletes k e

theorem made_toPending {read : List WMsg} {b : TBatch} (hm : .batch b ∈ read) : MadeOf read b b.toPending.pb := by
  refine ⟨hm, rfl, rfl, rfl, rfl, fun k v hk => ?_, fun k hk => ?_⟩
  · have hk : (putAll GMap.empty b.values).get? k = some v := hk
    rw [get?_putAll] at hk
    exact .inl (by simpa using hk)
  · have hk : (markAll GMap.empty b.deletes).contains k = true := hk
    rcases (contains_markAll _ _ _).mp hk with e | e
    · exact .inl e
    · rw [GMap.contains_iff] at e; simp at e

/-- The sub-batch has been read or is waited for. -/
def CameOrMissing (read : List WMsg) (pending : Option (GMap Hash Unit)) (id : Hash) : Prop :=
  (∃ s, .sub s ∈ read ∧ s.batchId = id) ∨ ∃ m, pending = some m ∧ m.contains id = true

/-- The maps of a connection on which the items `read` have been read. -/
structure WcInv (read : List WMsg) (c : WConn) : Prop where
  held : ∀ h x, c.batches.get? h = some x → ∃ b, MadeOf read b x.pb ∧ b.hash = h ∧ (SameParts read → ∀ id, Lists b id → CameOrMissing read (c.pending.get? h) id)
  subs : ∀ id s, c.subs.get? id = some s → .sub s ∈ read ∧ s.batchId = id

theorem WcInv.fresh (c : WConn) : WcInv [] c.reconnect := ⟨by intro h x hx; simp [WConn.reconnect] at hx, by intro h x hx; simp [WConn.reconnect] at hx⟩

theorem WcInv.more {read : List WMsg} {c : WConn} (h : WcInv read c) (m : WMsg) : WcInv (read ++ [m]) c := by
  have hs : ∀ x ∈ read, x ∈ read ++ [m] := by simp +contextual
  refine ⟨fun k x hx => ?_, fun id s hx => ?_⟩
  · obtain ⟨b, h1, h2, h3⟩ := h.held k x hx
    refine ⟨b, h1.subset hs, h2, fun hp id hid => ?_⟩
    rcases h3 (hp.less hs) id hid with ⟨s, e1, e2⟩ | e
    · exact .inl ⟨s, hs _ e1, e2⟩
    · exact .inr e
  · exact ⟨hs _ (h.subs id s hx).1, (h.subs id s hx).2⟩

theorem lists_ids {mo : MapOrder} {b : TBatch} {id : Hash} : id ∈ (mo.ord 2 b.batches.entries).map Prod.snd ↔ Lists b id := by
  rw [((mo.perm 2 _).map _).mem_iff]
  constructor
  · intro h
    obtain ⟨⟨p, x⟩, hm, rfl⟩ := List.mem_map.mp h
    exact ⟨p, (GMap.get?_eq_some_iff _).mpr hm⟩
  · rintro ⟨p, hp⟩
    exact List.mem_map.mpr ⟨(p, id), (GMap.get?_eq_some_iff _).mp hp, rfl⟩

theorem contains_of_size {m : GMap Hash Unit} (h : m.size = 0) (x : Hash) : m.contains x = false := by
  exact (GMap.contains_eq_false m).mpr ((size_zero_iff m).mp h x)

theorem WcInv.step {read : List WMsg} {c d : WConn} {mo : MapOrder} {m : WMsg} (h : WcInv read c) (hs : c.step mo m = .ok d) :
    WcInv (read ++ [m]) d ∧ ∀ x, .block x ∈ d.out → .block x ∈ c.out ∨ WsReceived (read ++ [m]) x.pb := by
  have h := h.more m
  have hlast : m ∈ read ++ [m] := by simp
  generalize read ++ [m] = R at h hlast ⊢
  cases m with
  | hollow => simp [WConn.step] at hs
  | ready => simp only [WConn.step, Except.ok.injEq] at hs; subst hs; exact ⟨⟨h.held, h.subs⟩, fun x hx => .inl hx⟩
  | unknown => simp only [WConn.step, Except.ok.injEq] at hs; subst hs; exact ⟨h, fun x hx => .inl hx⟩
  | reorg n y =>
    simp only [WConn.step, Except.ok.injEq] at hs; subst hs
    exact ⟨⟨h.held, h.subs⟩, fun x hx => .inl (by simpa using hx)⟩
  | batch b =>
    simp only [WConn.step, Except.ok.injEq] at hs; subst hs
    rw [WConn.onBatch_eq c mo b _ rfl]
    have hmade : MadeOf R b (gather b.toPending c.subs GMap.empty ((mo.ord 2 b.batches.entries).map Prod.snd)).1.pb := by
      refine gather_ind (P := fun x => MadeOf R b x.pb) (made_toPending hlast) fun x s id hx hid hg => hx.merge ⟨(h.subs id s hg).1, .inr ?_⟩
      rw [(h.subs id s hg).2]; exact lists_ids.mp hid
    have hfound : ∀ id, Lists b id → (∃ s, .sub s ∈ R ∧ s.batchId = id) ∨
        (gather b.toPending c.subs GMap.empty ((mo.ord 2 b.batches.entries).map Prod.snd)).2.2.contains id = true := by
      intro id hid
      rcases gather_found.1 (lists_ids.mpr hid) with ⟨s, hg⟩ | e
      · exact .inl ⟨s, h.subs id s hg⟩
      · exact .inr e
    have hold : ∀ id s, (gather b.toPending c.subs GMap.empty ((mo.ord 2 b.batches.entries).map Prod.snd)).2.1.get? id = some s → .sub s ∈ R ∧ s.batchId = id :=
      fun id s hg => h.subs id s (gather_subs_old hg)
    generalize gather b.toPending c.subs GMap.empty ((mo.ord 2 b.batches.entries).map Prod.snd) = g at hmade hfound hold
    simp only []
    split
    · rename_i hz
      have hall : AllCame R b := fun id hid => (hfound id hid).resolve_right (by rw [contains_of_size hz]; simp)
      refine ⟨⟨fun k x hk => ?_, hold⟩, fun x hx => ?_⟩
      · obtain ⟨b', h1, h2, h3⟩ := h.held k x hk
        refine ⟨b', h1, h2, fun hp id hid => ?_⟩
        show CameOrMissing R ((c.pending.erase b.hash).get? k) id
        by_cases e : b.hash = k
        · exact .inl (hall id (hp b' b h1.mem hlast (h2.trans e.symm) id hid))
        · rw [GMap.get?_erase_ne _ e]; exact h3 hp id hid
      · simp only [WConn.finish, List.mem_append, List.mem_singleton, WOut.block.injEq] at hx
        rcases hx with hx | rfl
        · exact .inl hx
        · exact .inr ⟨b, hmade, fun _ => hall⟩
    · refine ⟨⟨fun k x hk => ?_, hold⟩, fun x hx => .inl hx⟩
      simp only [GMap.get?_insert] at hk ⊢
      split at hk
      · rename_i e
        cases hk
        refine ⟨b, hmade, e, fun _ id hid => ?_⟩
        rw [if_pos e]
        rcases hfound id hid with x | x
        · exact .inl x
        · exact .inr ⟨_, rfl, x⟩
      · rename_i e
        rw [if_neg e]
        exact h.held k x hk
  | sub s =>
    simp only [WConn.step, Except.ok.injEq] at hs; subst hs
    unfold WConn.onSub
    cases hb : c.batches.get? s.hash with
    | none =>
      refine ⟨⟨h.held, fun id t ht => ?_⟩, fun x hx => .inl hx⟩
      simp only [GMap.get?_insert] at ht
      split at ht
      · rename_i e; cases ht; exact ⟨hlast, e⟩
      · exact h.subs id t ht
    | some x =>
      obtain ⟨b, h1, h2, h3⟩ := h.held _ _ hb
      have hmade : MadeOf R b (x.merge s).pb := h1.merge ⟨hlast, .inl h2.symm⟩
      have hsubs : ∀ id t, (c.subs.erase s.batchId).get? id = some t → .sub t ∈ R ∧ t.batchId = id := by
        intro id t ht
        rw [GMap.get?_erase] at ht
        split at ht
        · cases ht
        · exact h.subs id t ht
      simp only []
      cases hq : c.pending.get? s.hash with
      | none =>
        rw [hq] at h3
        have hall : SameParts R → AllCame R b := fun hp id hid => (h3 hp id hid).resolve_right (by rintro ⟨m, e, _⟩; cases e)
        refine ⟨⟨fun k y hk => ?_, hsubs⟩, fun y hy => ?_⟩
        · simp only [WConn.finish, GMap.get?_erase] at hk
          split at hk
          · cases hk
          · exact h.held k y hk
        · simp only [WConn.finish, List.mem_append, List.mem_singleton, WOut.block.injEq] at hy
          rcases hy with hy | rfl
          · exact .inl hy
          · exact .inr ⟨b, hmade, hall⟩
      | some q =>
        rw [hq] at h3
        have hleft : SameParts R → ∀ id, Lists b id → (∃ t, .sub t ∈ R ∧ t.batchId = id) ∨ (q.erase s.batchId).contains id = true := by
          intro hp id hid
          rcases h3 hp id hid with e | ⟨m, e, hc⟩
          · exact .inl e
          · cases e
            by_cases e : s.batchId = id
            · exact .inl ⟨s, hlast, e⟩
            · refine .inr ?_
              rw [GMap.contains_erase]; simp [e, hc]
        simp only []
        split
        · rename_i hz
          have hall : SameParts R → AllCame R b := fun hp id hid => (hleft hp id hid).resolve_right (by rw [contains_of_size hz]; simp)
          refine ⟨⟨fun k y hk => ?_, hsubs⟩, fun y hy => ?_⟩
          · simp only [WConn.finish, GMap.get?_erase] at hk ⊢
            split at hk
            · cases hk
            · rename_i e; rw [if_neg e]; exact h.held k y hk
          · simp only [WConn.finish, List.mem_append, List.mem_singleton, WOut.block.injEq] at hy
            rcases hy with hy | rfl
            · exact .inl hy
            · exact .inr ⟨b, hmade, hall⟩
        · refine ⟨⟨fun k y hk => ?_, hsubs⟩, fun y hy => .inl hy⟩
          simp only [GMap.get?_insert] at hk ⊢
          split at hk
          · rename_i e
            cases hk
            refine ⟨b, hmade, h2.trans e, fun hp id hid => ?_⟩
            rw [if_pos e]
            rcases hleft hp id hid with z | z
            · exact .inl z
            · exact .inr ⟨_, rfl, z⟩
          · rename_i e
            rw [if_neg e]
            exact h.held k y hk

/-! ## Websockets: the whole consumer -/

/-- `done` are the connections that broke, `cur` what was read on the present one. -/
structure WwInv (conns : List (List WMsg)) (w : WSys) (done : List (List WMsg)) (cur : List WMsg) : Prop where
  conns : conns = done ++ (cur ++ w.todo) :: w.later
  here : WcInv cur w.conn
  out : ∀ x, .block x ∈ w.conn.out → ∃ c ∈ done ++ [cur], WsReceived c x.pb

theorem WwInv.step {conns : List (List WMsg)} {w w' : WSys} {done : List (List WMsg)} {cur : List WMsg} (h : WwInv conns w done cur) (hs : WSys.Step C env o w w') :
    ∃ done' cur', WwInv conns w' done' cur' := by
  have one : ∀ (m : WMsg) (ms : List WMsg) (mo : MapOrder) (d : WConn), w.todo = m :: ms → w.conn.step mo m = .ok d → conns = done ++ ((cur ++ [m]) ++ ms) :: w.later ∧
      WcInv (cur ++ [m]) d ∧ ∀ x, .block x ∈ d.out → ∃ c ∈ done ++ [cur ++ [m]], WsReceived c x.pb := by
    intro m ms mo d ht hd
    obtain ⟨h1, h2⟩ := h.here.step hd
    refine ⟨by rw [h.conns, ht]; simp, h1, fun x hx => ?_⟩
    rcases h2 x hx with e | e
    · obtain ⟨c, hc, hr⟩ := h.out x e
      rcases List.mem_append.mp hc with hc | hc
      · exact ⟨c, by simp [hc], hr⟩
      · rw [List.mem_singleton] at hc; subst hc
        exact ⟨c ++ [m], by simp, hr.subset (by simp +contextual)⟩
    · exact ⟨cur ++ [m], by simp, e⟩
  cases hs with
  | inner _ => exact ⟨done, cur, h.conns, h.here, h.out⟩
  | read _ _ ht _ hd =>
    obtain ⟨a, b, c⟩ := one _ _ _ _ ht hd
    exact ⟨done, _, a, b, c⟩
  | reorg _ _ ht hd _ =>
    obtain ⟨a, b, c⟩ := one _ _ _ _ ht hd
    exact ⟨done, _, a, b, c⟩
  | reconnect _ _ ht hl =>
    refine ⟨done ++ [cur], [], ?_, WcInv.fresh _, fun x hx => ?_⟩
    · rw [h.conns, ht, hl]; simp
    · obtain ⟨c, hc, hr⟩ := h.out x hx
      exact ⟨c, List.mem_append_left _ hc, hr⟩

variable {num : Int} {first : List WMsg} {later : List (List WMsg)}

theorem ww_steps {w0 w : WSys} (h0 : WSys.start cfg num first later = .ok w0) (hs : WSys.Steps C env o w0 w) :
    ∃ done cur, WwInv (first :: later) w done cur := by
  induction hs with
  | refl =>
    unfold WSys.start at h0
    obtain ⟨s, _, h0⟩ := bind_ok.mp h0
    cases h0
    exact ⟨[], [], by simp, ⟨by intro h x hx; simp [WConn.new] at hx, by intro h x hx; simp [WConn.new] at hx⟩, by intro x hx; simp [WConn.new] at hx⟩
  | step _ h ih =>
    obtain ⟨done, cur, hi⟩ := ih
    exact hi.step h

/-- The blocks the ordering layer has handled were received. -/
theorem ww_handled {w0 w : WSys} (h0 : WSys.start cfg num first later = .ok w0) (hs : WSys.Steps C env o w0 w) {done : List (List WMsg)} {cur : List WMsg}
    (h : WwInv (first :: later) w done cur) : ∀ pb ∈ blocksOf w.sys.ops, ∃ c ∈ done ++ [cur], WsReceived c pb := by
  obtain ⟨rest, hi⟩ := wr_steps h0 hs
  intro pb hpb
  have hm : pb.bald ∈ (handed w.conn.out).map PB.bald := by
    rw [← hi.blocks]; exact List.mem_map.mpr ⟨pb, by simp [hpb], rfl⟩
  obtain ⟨y, hy, e⟩ := List.mem_map.mp hm
  obtain ⟨x, hx, rfl⟩ := mem_handed.mp hy
  obtain ⟨c, hc, b, hb, hall⟩ := h.out x hx
  refine ⟨c, hc, b, ?_, hall⟩
  have f := fun {α : Type} (g : PB → α) => congrArg g e
  exact ⟨hb.mem, (f PB.number).symm.trans hb.number, (f PB.weight).symm.trans hb.weight, (f PB.hash).symm.trans hb.hash, (f PB.parentHash).symm.trans hb.parentHash,
    fun k v hk => hb.values k v ((congrArg (·.get? k) (f PB.values)).trans hk), fun k hk => hb.deletes k ((congrArg (·.contains k) (f PB.deletes)).trans hk)⟩

/-- **C157**, websockets: whatever a server sends on however many connections, every block subscribers are told of passes the whitelist and was made of one batch and of
sub-batches that were read on the same connection before, each with the hash of the block or an id the batch names; all sub-batches the batch names had been read, if the
server sends no two batches with the same hash and different sub-batches. -/
theorem C157_websocket {w0 w : WSys} (h0 : WSys.start cfg num first later = .ok w0) (hs : WSys.Steps C env o w0 w) :
    ∃ done cur, first :: later = done ++ (cur ++ w.todo) :: w.later ∧
      ∀ added removed, .update added removed ∈ w.sys.omp.log → ∀ pb ∈ added ++ removed, (∃ c ∈ done ++ [cur], WsReceived c pb) ∧ ¬ Forbidden cfg.whitelist pb := by
  obtain ⟨done, cur, hi⟩ := ww_steps h0 hs
  obtain ⟨rest, hr⟩ := wr_steps h0 hs
  obtain ⟨omp0, hn, hrun⟩ := hr.omp
  refine ⟨done, cur, hi.conns, fun added removed hu pb hpb => ⟨ww_handled h0 hs hi pb ?_, C33_whitelist hn hrun hu hpb⟩⟩
  obtain ⟨l1, l2, e, _⟩ := C34_admitted hn hrun hu hpb
  rw [e]; simp

/-- **C157**, websockets: if hashes identify blocks, the updates replay into one linked chain from the stored block, whatever else the server sends. -/
theorem C157_websocket_chain (hz : cfg.lastHash ≠ Hash.zero) (hid : WsIdentify (first :: later)) {w0 w : WSys} (h0 : WSys.start cfg num first later = .ok w0)
    (hs : WSys.Steps C env o w0 w) :
    ∃ base chain, Replays cfg.lastHash w.sys.omp.log base chain ∧ Linked base chain ∧ endOf base chain = w.sys.omp.lastHash := by
  classical
  obtain ⟨done, cur, hi⟩ := ww_steps h0 hs
  obtain ⟨rest, hr⟩ := wr_steps h0 hs
  obtain ⟨omp0, hn, hrun⟩ := hr.omp
  let pick (k : Hash) : Option TBatch := if x : ∃ b, .batch b ∈ (first :: later).flatten ∧ b.hash = k then some x.choose else none
  have hpick : ∀ b, .batch b ∈ (first :: later).flatten → ∃ b', pick b.hash = some b' ∧ .batch b' ∈ (first :: later).flatten ∧ b'.hash = b.hash := by
    intro b hb
    have x : ∃ b', .batch b' ∈ (first :: later).flatten ∧ b'.hash = b.hash := ⟨b, hb, rfl⟩
    exact ⟨x.choose, dif_pos x, x.choose_spec⟩
  refine C28_continuous (W := ⟨fun k => ((pick k).map (·.parentHash)).getD Hash.zero, fun k => ((pick k).map (fun b => ofUint64 b.number)).getD 0,
    fun k => ((pick k).map (fun b => b.weight.toNat)).getD 0⟩) hz ?_ hn hrun
  intro pb hpb
  obtain ⟨c, hc, b, hb, _⟩ := ww_handled h0 hs hi pb hpb
  have hmem : .batch b ∈ (first :: later).flatten := by
    rw [hi.conns]
    rcases List.mem_append.mp hc with e | e
    · exact List.mem_flatten.mpr ⟨c, by simp [e], hb.mem⟩
    · rw [List.mem_singleton] at e; subst e
      exact List.mem_flatten.mpr ⟨c ++ w.todo, by simp, List.mem_append_left _ hb.mem⟩
  obtain ⟨b', e1, e2, e3⟩ := hpick b hmem
  obtain ⟨q1, q2, q3⟩ := hid.one b' b e2 hmem e3
  refine ⟨⟨?_, ?_, ?_⟩, by rw [hb.hash]; exact hid.nonzero b hmem⟩
  · simp only [hb.hash, e1]; simp [hb.parentHash, q1]
  · simp only [hb.hash, e1]; simp [hb.number, q2]
  · simp only [hb.hash, e1]; simp [hb.weight, q3]

/-! ## Examples -/

/-- Performing a step; any item can be read. -/
def WSys.wild1 (C : Codec) (env : Env) (o : MapOrder) (w : WSys) (x : WSched) : Option WSys :=
  match x, w.sys.todo, w.sys.out, w.todo with
  | .read, [], [], .sub s :: ms => some { w with conn := w.conn.onSub s, todo := ms, sys := { w.sys with todo := (handed ((w.conn.onSub s).out.drop w.conn.out.length)).map Call.block } }
  | .read, [], [], .unknown :: ms => some { w with todo := ms, sys := { w.sys with todo := (handed (w.conn.out.drop w.conn.out.length)).map Call.block } }
  | x, _, _, _ => w.exec1 false C env o x

theorem wild1_step {w w' : WSys} {x : WSched} (h : w.wild1 C env o x = some w') : WSys.Step C env o w w' := by
  unfold WSys.wild1 at h
  split at h
  · rename_i e1 e2 e3
    cases h
    exact .read (mo := o) e1 e2 e3 (by intro n h e; cases e) rfl
  · rename_i e1 e2 e3
    cases h
    exact .read (mo := o) e1 e2 e3 (by intro n h e; cases e) rfl
  · exact (wexec1_step h).1

/-- A schedule. -/
def WSys.wild (C : Codec) (env : Env) (o : MapOrder) : WSys → List WSched → Option WSys
  | w, [] => some w
  | w, x :: l => (w.wild1 C env o x).bind fun w' => WSys.wild C env o w' l

theorem wild_steps {w w1 w' : WSys} {l : List WSched} (h1 : WSys.Steps C env o w w1) (h : WSys.wild C env o w1 l = some w') : WSys.Steps C env o w w' := by
  induction l generalizing w1 with
  | nil => cases h; exact h1
  | cons x l ih =>
    simp only [WSys.wild, Option.bind_eq_some_iff] at h
    obtain ⟨w2, h2, h3⟩ := h
    exact ih (.step h1 (wild1_step h2)) h3

/-- Of what is told of the added blocks: hash and value of key `k`. -/
def exWildView (k : GoStr) (items : List WMsg) (l : List WSched) : Option (List (List (Hash × Bytes)) × Nat) :=
  match WSys.start exOCfg 10 items [] with
  | .error _ => none
  | .ok w0 => (WSys.wild Avro.codec exEnv .plain w0 l).map fun w => (w.sys.omp.updates.map (fun u => u.1.map (fun b => (b.hash, (b.values.get? k).getD []))), w.sys.omp.log.length)

theorem exWildView_steps {k : GoStr} {items : List WMsg} {l : List WSched} {v : List (List (Hash × Bytes)) × Nat} (h : exWildView k items l = some v) :
    ∃ w0 w, WSys.start exOCfg 10 items [] = .ok w0 ∧ WSys.Steps Avro.codec exEnv .plain w0 w ∧
      w.sys.omp.updates.map (fun u => u.1.map (fun b => (b.hash, (b.values.get? k).getD []))) = v.1 ∧ w.sys.omp.log.length = v.2 := by
  unfold exWildView at h
  split at h
  · cases h
  · rename_i w0 h0
    rw [Option.map_eq_some_iff] at h
    obtain ⟨w, h1, h2⟩ := h
    subst h2
    exact ⟨w0, w, h0, wild_steps .refl h1, rfl, rfl⟩

/-- A batch with one value and the sub-batches named. -/
def exWildBatch (hash parent number : Nat) (weight : Int) (v : Bytes) (ids : List Nat) : WMsg :=
  .batch ⟨number, weight, exHash hash, exHash parent, GMap.empty.insert (str "k") v, [], GMap.ofList (ids.map fun i => (str "p" ++ [i.toUInt8], exHash i))⟩

/-- A sub-batch. -/
def exWildSub (hash id : Nat) (k : GoStr) (v : Bytes) : WMsg := .sub ⟨exHash hash, exHash id, GMap.empty.insert k v, []⟩

/-- Items of no known type, a sub-batch of no block, a sub-batch that comes before its block, a child before its parent, a block twice, and a reorg. -/
def exWild : List WMsg :=
  [.unknown, exWildSub 9 90 (str "z") [9], exWildSub 2 40 (str "x") [4], exWildBatch 3 2 12 20 [3] [], exWildBatch 2 1 11 10 [2] [40, 41],
   .reorg 10 (exHash 1), exWildSub 2 41 (str "y") [5], exWildBatch 3 2 12 20 [3] []]

/-- One item after the other; `true` for those that complete a block. -/
def exWildSched : List Bool → List WSched
  | [] => []
  | true :: r => [.read, .inner .call, .inner .send, .inner .send, .inner .block] ++ exWildSched r
  | false :: r => .read :: exWildSched r

theorem exWild_identify : WsIdentify [exWild] := by
  have hb : ∀ b, WMsg.batch b ∈ [exWild].flatten → (b.hash = exHash 3 ∧ b.parentHash = exHash 2 ∧ b.number = 12 ∧ b.weight = 20) ∨
      (b.hash = exHash 2 ∧ b.parentHash = exHash 1 ∧ b.number = 11 ∧ b.weight = 10) := by
    intro b hb
    simp only [exWild, exWildBatch, exWildSub, List.flatten_cons, List.flatten_nil, List.append_nil, List.mem_cons, WMsg.batch.injEq, reduceCtorEq, false_or, List.not_mem_nil, or_false] at hb
    rcases hb with rfl | rfl | rfl
    · exact .inl ⟨rfl, rfl, rfl, rfl⟩
    · exact .inr ⟨rfl, rfl, rfl, rfl⟩
    · exact .inl ⟨rfl, rfl, rfl, rfl⟩
  have hne : exHash 3 ≠ exHash 2 := by decide
  refine ⟨fun b b' h h' e => ?_, fun b h => ?_⟩
  · rcases hb b h with ⟨a1, a2, a3, a4⟩ | ⟨a1, a2, a3, a4⟩ <;> rcases hb b' h' with ⟨c1, c2, c3, c4⟩ | ⟨c1, c2, c3, c4⟩
    · exact ⟨a2.trans c2.symm, a3.trans c3.symm, a4.trans c4.symm⟩
    · exact absurd (a1.symm.trans (e.trans c1)) hne
    · exact absurd (c1.symm.trans (e.symm.trans a1)) hne
    · exact ⟨a2.trans c2.symm, a3.trans c3.symm, a4.trans c4.symm⟩
  · rcases hb b h with ⟨a1, _⟩ | ⟨a1, _⟩ <;> rw [a1] <;> decide

/-- The hypotheses of `C157_websocket` and `C157_websocket_chain` are met: two blocks are told of in one update, with the value from the sub-batch that came early. -/
example : exOCfg.lastHash ≠ Hash.zero ∧ WsIdentify [exWild] ∧ ∃ w0 w, WSys.start exOCfg 10 exWild [] = .ok w0 ∧ WSys.Steps Avro.codec exEnv .plain w0 w ∧
    w.sys.omp.updates.map (fun u => u.1.map (fun b => (b.hash, (b.values.get? (str "x")).getD []))) = [[(exHash 2, [4]), (exHash 3, [])]] := by
  obtain ⟨w0, w, h1, h2, h3, _⟩ := exWildView_steps (k := str "x") (items := exWild) (l := exWildSched [false, false, false, true, false, false, true, true])
    (v := ([[(exHash 2, [4]), (exHash 3, [])]], 2)) (by decide +kernel)
  exact ⟨by decide, exWild_identify, w0, w, h1, h2, h3⟩

/-- Every header in the topic is one of two. -/
theorem exParts_headers : ((fetched 2 exParts).all fun c => match c with
    | .block _ => false
    | .msg m => m.key.head? != some 0 || match Avro.codec.decBatch m.value with
      | none => true
      | some b => (blockOf m.key == exHash 1 && b.parentHash == exHash 2 && b.number == 5 && bytesNat b.weight == 300) ||
        (blockOf m.key == exHash 3 && b.parentHash == exHash 1 && b.number == 6 && bytesNat b.weight == 310)) = true := by decide +kernel

theorem exParts_identify : HashesIdentify Avro.codec (fetched 2 exParts) := by
  have key : ∀ h p n w, Described Avro.codec (fetched 2 exParts) h p n w → (h = exHash 1 ∧ p = exHash 2 ∧ n = 5 ∧ w = 300) ∨ (h = exHash 3 ∧ p = exHash 1 ∧ n = 6 ∧ w = 310) := by
    intro h p n w hd
    have hall := List.all_eq_true.mp exParts_headers
    cases hd with
    | block pb hm _ _ _ _ => exact absurd (hall _ hm) (by simp)
    | header m b hm hb h1 h2 h3 =>
      have := hall _ hm.mem
      simp only [hm.type, hb, hm.block, h1, h2, h3] at this
      simpa [and_assoc] using this
  have hne : exHash 1 ≠ exHash 3 := by decide
  refine ⟨fun h p n w p' n' w' x y => ?_, fun h p n w x => ?_⟩
  · rcases key h p n w x with ⟨a1, a2, a3, a4⟩ | ⟨a1, a2, a3, a4⟩ <;> rcases key h p' n' w' y with ⟨c1, c2, c3, c4⟩ | ⟨c1, c2, c3, c4⟩
    · exact ⟨a2.trans c2.symm, a3.trans c3.symm, a4.trans c4.symm⟩
    · exact absurd (a1.symm.trans c1) hne
    · exact absurd (c1.symm.trans a1) hne
    · exact ⟨a2.trans c2.symm, a3.trans c3.symm, a4.trans c4.symm⟩
  · rcases key h p n w x with ⟨a1, _⟩ | ⟨a1, _⟩ <;> rw [a1] <;> decide

/-- The hypotheses of `C157_kafka` are met: two partitions, in one of which the messages come in reverse, with a ping and an empty key; two blocks are told of. -/
example : exSysCfg.lastHash ≠ Hash.zero ∧ HashesIdentify Avro.codec (fetched 2 exParts) ∧
    ∃ k0 k, KSys.start exSysCfg 2 (fun _ => 0) exParts = .ok k0 ∧ KSys.Steps Avro.codec exEnv .plain (str "d") k0 k ∧
    (k.sys.omp.log.flatMap addedBy).length = 2 := by
  have hst : ∃ k0, KSys.start exSysCfg 2 (fun _ => 0) exParts = .ok k0 := ⟨_, rfl⟩
  obtain ⟨k0, h0⟩ := hst
  have : ∃ k, KSys.Steps Avro.codec exEnv .plain (str "d") k0 k ∧ ∀ k', ¬ KSys.Step Avro.codec exEnv .plain (str "d") k k' := by
    apply Classical.byContradiction
    intro hno
    have hno : ∀ k, KSys.Steps Avro.codec exEnv .plain (str "d") k0 k → ∃ k', KSys.Step Avro.codec exEnv .plain (str "d") k k' := by
      intro k hk
      apply Classical.byContradiction
      intro h
      exact hno ⟨k, hk, fun k' hk' => h ⟨k', hk'⟩⟩
    let f : Nat → { k : KSys // KSys.Steps Avro.codec exEnv .plain (str "d") k0 k } := fun n => Nat.rec ⟨k0, .refl⟩
      (fun _ k => ⟨Classical.choose (hno k.1 k.2), .step k.2 (Classical.choose_spec (hno k.1 k.2))⟩) n
    exact k_no_endless (fun n => (f n).1) (fun n => Classical.choose_spec (hno (f n).1 (f n).2))
  obtain ⟨k, hk, hstuck⟩ := this
  exact ⟨by decide, exParts_identify, k0, k, h0, hk, ((C87_published exLink Avro.codec_lawful h0 hk).2 hstuck (by intro t n hn; simp [exEnv] at hn)).2.1⟩

/-! ## Two batches with one hash -/

/-- Block 3 with a sub-batch 40 that never comes; block 3 again, with nothing missing; a sub-batch 99 of block 3; and its parent. -/
def exStale : List WMsg := [exWildBatch 3 2 12 20 [1] [40], exWildBatch 3 2 12 20 [2] [], exWildSub 3 99 (str "z") [9], exWildBatch 2 1 11 10 [0] []]

theorem exStale_mem {b : TBatch} (h : WMsg.batch b ∈ exStale) : b = ⟨12, 20, exHash 3, exHash 2, GMap.empty.insert (str "k") [1], [], GMap.ofList [(str "p" ++ [40], exHash 40)]⟩ ∨
    (b.hash = exHash 3 ∧ b.parentHash = exHash 2 ∧ b.number = 12 ∧ b.weight = 20 ∧ b.values.get? (str "k") = some [2]) ∨
    (b.hash = exHash 2 ∧ b.parentHash = exHash 1 ∧ b.number = 11 ∧ b.weight = 10 ∧ b.values.get? (str "k") = some [0]) := by
  simp only [exStale, exWildBatch, exWildSub, List.mem_cons, WMsg.batch.injEq, reduceCtorEq, false_or, List.not_mem_nil, or_false] at h
  rcases h with rfl | rfl | rfl
  · exact .inl rfl
  · exact .inr (.inl ⟨rfl, rfl, rfl, rfl, by simp⟩)
  · exact .inr (.inr ⟨rfl, rfl, rfl, rfl, by simp⟩)

/-- **C157**: the condition on sub-batches cannot be left out. When a block is completed at once, what is held of an earlier batch with its hash stays in the map `batches`
(`transports/websockets.go:439-443`), without an entry in `pendingSubbatches`; the next sub-batch with the hash hands it on as complete. Here subscribers are told of
block 3 without its sub-batch 40, which was never sent, though hashes identify blocks. -/
theorem C157_needs_same_parts : ∃ (items : List WMsg) (w0 w : WSys), WsIdentify [items] ∧ WSys.start exOCfg 10 items [] = .ok w0 ∧
    WSys.Steps Avro.codec exEnv .plain w0 w ∧ ∃ added removed pb, .update added removed ∈ w.sys.omp.log ∧ pb ∈ added ∧
      ∀ b, MadeOf items b pb → ¬ AllCame items b := by
  obtain ⟨w0, w, h1, h2, h3, _⟩ := exWildView_steps (k := str "k") (items := exStale) (l := exWildSched [false, true, true, true])
    (v := ([[(exHash 2, [0]), (exHash 3, [1])]], 1)) (by decide +kernel)
  have hid : WsIdentify [exStale] := by
    have hb : ∀ b, WMsg.batch b ∈ [exStale].flatten → (b.hash = exHash 3 ∧ b.parentHash = exHash 2 ∧ b.number = 12 ∧ b.weight = 20) ∨
        (b.hash = exHash 2 ∧ b.parentHash = exHash 1 ∧ b.number = 11 ∧ b.weight = 10) := by
      intro b hb
      rcases exStale_mem (by simpa using hb) with rfl | ⟨a, b, c, d, _⟩ | ⟨a, b, c, d, _⟩
      · exact .inl ⟨rfl, rfl, rfl, rfl⟩
      · exact .inl ⟨a, b, c, d⟩
      · exact .inr ⟨a, b, c, d⟩
    have hne : exHash 3 ≠ exHash 2 := by decide
    refine ⟨fun b b' h h' e => ?_, fun b h => ?_⟩
    · rcases hb b h with ⟨a1, a2, a3, a4⟩ | ⟨a1, a2, a3, a4⟩ <;> rcases hb b' h' with ⟨c1, c2, c3, c4⟩ | ⟨c1, c2, c3, c4⟩
      · exact ⟨a2.trans c2.symm, a3.trans c3.symm, a4.trans c4.symm⟩
      · exact absurd (a1.symm.trans (e.trans c1)) hne
      · exact absurd (c1.symm.trans (e.symm.trans a1)) hne
      · exact ⟨a2.trans c2.symm, a3.trans c3.symm, a4.trans c4.symm⟩
    · rcases hb b h with ⟨a1, _⟩ | ⟨a1, _⟩ <;> rw [a1] <;> decide
  obtain ⟨u, hu, he⟩ := List.map_eq_singleton_iff.mp h3
  have hmem : .update u.1 u.2 ∈ w.sys.omp.log := by
    have : u ∈ w.sys.omp.updates := by rw [hu]; simp
    obtain ⟨x, hx, e⟩ := List.mem_filterMap.mp this
    cases x with
    | update a r => cases e; exact hx
    | _ => cases e
  have hin : (exHash 3, [1]) ∈ u.1.map (fun b => (b.hash, (b.values.get? (str "k")).getD [])) := by rw [he]; simp
  obtain ⟨pb, hpb, e⟩ := List.mem_map.mp hin
  simp only [Prod.mk.injEq] at e
  refine ⟨exStale, w0, w, hid, h1, h2, u.1, u.2, pb, hmem, hpb, ?_⟩
  intro b hb hall
  have hk : pb.values.get? (str "k") = some [1] := by
    cases hv : pb.values.get? (str "k") with
    | none => rw [hv] at e; simp at e
    | some v => rw [hv] at e; simpa using e.2
  have hsub : ∀ s, WMsg.sub s ∈ exStale → s = ⟨exHash 3, exHash 99, GMap.empty.insert (str "z") [9], []⟩ := by
    intro s hs
    simpa [exStale, exWildBatch, exWildSub] using hs
  have hfrom : b.values.get? (str "k") = some [1] := by
    rcases hb.values _ _ hk with x | ⟨s, hs, hx⟩
    · exact x
    · rw [hsub s hs.mem, GMap.get?_insert] at hx
      rw [if_neg (by decide)] at hx
      simp at hx
  rcases exStale_mem hb.mem with rfl | ⟨_, _, _, _, x⟩ | ⟨_, _, _, _, x⟩
  · obtain ⟨s, hs, hi⟩ := hall (exHash 40) ⟨str "p" ++ [40], by decide⟩
    rw [hsub s hs] at hi
    exact absurd hi (by decide)
  · rw [hfrom] at x; exact absurd x (by decide)
  · rw [hfrom] at x; exact absurd x (by decide)

end Verif
