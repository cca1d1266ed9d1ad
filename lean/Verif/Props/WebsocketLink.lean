import Verif.Props.WebsocketWhole
import Verif.Props.WebsocketEnd
/-!
# C123: a websocket server and a consumer that reconnects to it
-/
namespace Verif
open Spec

/-! ## Specification -/

/-- A block that can be sent as JSON and read again. -/
structure Spec.Publishable (b : WsArgs) : Prop where
  textual : Textual b.1 b.2
  number : InInt64 b.1.number
  ids : (b.1.batches.entries.map Prod.snd).Nodup
  agree : ∀ k v w, WsValue b.1 b.2 k v → WsValue b.1 b.2 k w → v = w

/-- The calls by which a producer is given one block: `AddBlock`, and then `SendBatch` for each of its sub-batches, in any order (a second call for the same is refused). -/
def Spec.PublishesOne (b : WsArgs) (ops : List WOp) : Prop :=
  ∃ (o : MapOrder) (ids : List Hash), ops = .add o b.1 :: ids.map (fun id => .send id (b.2 id)) ∧ ∀ id, id ∈ ids ↔ ∃ p, b.1.batches.get? p = some id

/-- The calls by which it is given blocks, one after the other. -/
def Spec.PublishesInTurn (bs : List WsArgs) (ops : List WOp) : Prop :=
  ∃ segs : List (WsArgs × List WOp), segs.map Prod.fst = bs ∧ (∀ s ∈ segs, Publishable s.1 ∧ PublishesOne s.1 s.2) ∧ ops = segs.flatMap Prod.snd

/-- The server, which is given the calls `ops`, serves subscription `i` from a position: the application has stored the blocks `fresh` after it for which the calls are `pre`,
and hands them out; when `Subscribe` is called, if it is, the feed has been given the messages of `pre`. -/
def Spec.ServesFrom (cfg : Config) (num : Int) (bs : List WsArgs) (ops : List WOp) (stored : Nat → List WMsg) (u : SrvSys) (i : Nat) (req : Nat × Hash) : Prop :=
  ∃ older known fresh new pre post f, bs = known ++ fresh ++ new ∧ req = tip num cfg.lastHash known ∧ ops = pre ++ post ∧
    PublishesInTurn (older ++ known ++ fresh) pre ∧ PublishesInTurn new post ∧ stored i = fresh.map f ∧ (∀ b ∈ fresh, StoredForm b (f b)) ∧
    ((u.stream i).since = none ∨ (u.stream i).since = some (wsSentBy pre).length)

/-! ## The producer -/

theorem Spec.PublishesOne.publishes {b : WsArgs} {ops : List WOp} (hb : Publishable b) (h : PublishesOne b ops) : WsPublishes [b] ops := by
  obtain ⟨o, ids, rfl, hids⟩ := h
  have one : ∀ {P : WsArgs → Prop}, P b → ∀ x ∈ [b], P x := fun h x hx => by
    rw [List.mem_singleton] at hx; subst hx; exact h
  have hadds : (ids.map (fun id => WOp.send id (b.2 id))).filterMap addOf = [] := by
    clear hids
    induction ids with
    | nil => rfl
    | cons id ids ih => simpa [addOf] using ih
  refine ⟨one hb.textual, one hb.number, one hb.ids, one hb.agree, ?_, one (one (fun _ _ _ => rfl)), ?_, one ?_⟩
  · rw [List.filterMap_cons]; simp only [addOf, hadds]; exact List.Perm.refl _
  · intro id s hs
    refine one ?_
    intro _
    simp only [List.mem_cons, reduceCtorEq, false_or, List.mem_map, WOp.send.injEq] at hs
    obtain ⟨a, _, rfl, rfl⟩ := hs; rfl
  · intro id hid
    exact ⟨[], o, _, rfl, List.mem_map.mpr ⟨id, (hids id).mpr hid, rfl⟩⟩

/-- The messages of the calls for blocks one after the other. -/
theorem wsSentBy_segs {segs : List (WsArgs × List WOp)} (h : ∀ s ∈ segs, Publishable s.1 ∧ PublishesOne s.1 s.2) (post : List WOp) :
    wsSentBy (segs.flatMap Prod.snd ++ post) = segs.flatMap (fun s => wsSentBy s.2) ++ wsSentBy post := by
  induction segs with
  | nil => rfl
  | cons s segs ih =>
    rw [List.flatMap_cons, List.flatMap_cons, List.append_assoc, List.append_assoc, ← ih (fun x hx => h x (by simp [hx]))]
    exact ((h s (by simp)).2.publishes (h s (by simp)).1).sent_append (by simp) _

theorem Spec.PublishesInTurn.append {bs : List WsArgs} {pre : List WOp} (h : PublishesInTurn bs pre) (post : List WOp) :
    wsSentBy (pre ++ post) = wsSentBy pre ++ wsSentBy post := by
  obtain ⟨segs, _, h2, rfl⟩ := h
  have h1 := wsSentBy_segs h2 []
  rw [List.append_nil] at h1
  rw [wsSentBy_segs h2 post, h1]
  show _ = (_ ++ []) ++ _
  rw [List.append_nil]

theorem sentBy_sends (o : MapOrder) (b : BlockArgs) (l : List (Hash × SubArgs)) :
    ∃ subs, wsSentBy (.add o b :: l.map (fun x => .send x.1 x.2)) = .batch (wsBatch o b.number b.hash b.parentHash b.weight b.updates b.deletes b.batches) :: subs := by
  obtain ⟨t, h⟩ := wsSentBy_prefix [.add o b] (l.map (fun x => .send x.1 x.2))
  exact ⟨t, h.symm⟩

/-- The messages of a block are the block and then its sub-batches. -/
theorem Spec.PublishesOne.whole {b : WsArgs} {ops : List WOp} (hb : Publishable b) (h : PublishesOne b ops) (o' : MapOrder) : WholeIn b ((wsSentBy ops).map (WMsg.json o')) := by
  have hp := h.publishes hb
  obtain ⟨o, ids, rfl, hids⟩ := h
  obtain ⟨subs, hsubs⟩ := wsSentBy_prefix [.add o b.1] (ids.map (fun id => .send id (b.2 id)))
  have hhead : wsSentBy [.add o b.1] = [.batch (wsBatch o b.1.number b.1.hash b.1.parentHash b.1.weight b.1.updates b.1.deletes b.1.batches)] := rfl
  rw [hhead] at hsubs
  have hsubs : wsSentBy (.add o b.1 :: ids.map (fun id => .send id (b.2 id))) = .batch (wsBatch o b.1.number b.1.hash b.1.parentHash b.1.weight b.1.updates b.1.deletes b.1.batches) :: subs := hsubs.symm
  have hnb : subs.filterMap batchHash = [] := by
    have e := wsSentBy_hashes (.add o b.1 :: ids.map (fun id => .send id (b.2 id)))
    rw [hsubs, List.filterMap_cons] at e
    have e2 : (ids.map (fun id => WOp.send id (b.2 id))).filterMap addOf = [] := by
      clear hsubs e hp hids
      induction ids with
      | nil => rfl
      | cons id ids ih => simpa [addOf] using ih
    rw [List.filterMap_cons] at e
    simp only [batchHash, addOf, e2, List.map_cons, List.map_nil, List.cons.injEq] at e
    exact e.2
  refine ⟨(wsMessages o o' b.1 b.2).1, (wsMessages o o' b.1 b.2).2, subs.map (WMsg.json o'), hp.form (by simp) o o', by rw [hsubs]; rfl, ?_, ?_⟩
  · intro m hm
    obtain ⟨m', hm', rfl⟩ := List.mem_map.mp hm
    rcases wsSentBy_mem (ops := .add o b.1 :: ids.map (fun id => .send id (b.2 id))) (m := m') (by rw [hsubs]; simp [hm']) with ⟨o2, a, _, rfl⟩ | ⟨id, s, o2, a, h1, h2, h3, rfl⟩
    · have : a.hash ∈ subs.filterMap batchHash := List.mem_filterMap.mpr ⟨_, hm', rfl⟩
      rw [hnb] at this; cases this
    · obtain ⟨b', hb', rfl⟩ := hp.block h2
      rw [List.mem_singleton] at hb'; subst hb'
      refine ⟨id, (hp.idsOf (by simp) o o' id).mpr h3, ?_⟩
      have := hp.sends id s h1 _ (by simp) h3
      subst this
      rfl
  · intro id hid
    have h3 := (hp.idsOf (by simp) o o' id).mp hid
    have := hp.sentAll (by simp) (by simp) h3
    rw [hsubs] at this
    rcases List.mem_cons.mp this with e | hm
    · cases e
    · exact List.mem_map.mpr ⟨_, hm, rfl⟩

/-- The messages of blocks published one after the other come one after the other. -/
theorem Spec.PublishesInTurn.pieces {bs : List WsArgs} {ops : List WOp} (h : PublishesInTurn bs ops) (o' : MapOrder) :
    ∃ segs, Pieces bs segs ∧ (wsSentBy ops).map (WMsg.json o') = segs.flatMap Prod.snd := by
  obtain ⟨segs, h1, h2, rfl⟩ := h
  refine ⟨segs.map (fun s => (s.1, (wsSentBy s.2).map (WMsg.json o'))), ⟨by rw [List.map_map]; exact h1, ?_⟩, ?_⟩
  · intro s hs
    obtain ⟨s', hs', rfl⟩ := List.mem_map.mp hs
    exact (h2 s' hs').2.whole (h2 s' hs').1 o'
  · have := wsSentBy_segs h2 []
    rw [List.append_nil] at this
    rw [this]
    show (_ ++ []).map _ = _
    rw [List.append_nil, List.map_flatMap, List.flatMap_map]

/-- The stored blocks, one after the other. -/
theorem stored_pieces {fresh : List WsArgs} {f : WsArgs → WMsg} (hb : ∀ b ∈ fresh, Publishable b) (hf : ∀ b ∈ fresh, StoredForm b (f b)) (o' : MapOrder) :
    Pieces fresh (fresh.map fun b => (b, [(f b).json o'])) := by
  refine ⟨by rw [List.map_map]; exact List.map_id _, ?_⟩
  intro s hs
  obtain ⟨b, hm, rfl⟩ := List.mem_map.mp hs
  obtain ⟨o, x, e, hx⟩ := hf b hm
  refine ⟨(streamsBatch o x).json o', fun id => ⟨b.1.hash, id, GMap.empty, []⟩, [], hx.form (hb b hm).textual (hb b hm).number o o' _, ?_, by simp, ?_⟩
  · show [(f b).json o'] = _
    rw [e]; rfl
  · intro id hid
    rw [idsOf_stored] at hid; cases hid

/-! ## The server -/

/-- A client that has not been subscribed has been sent stored blocks only. -/
theorem srv_never {n : Nat} {stored : Nat → List WMsg} {msgs : List WMsg} {leaves drains : Nat → Bool} {u : SrvSys}
    (hs : SrvSys.Steps (SrvSys.Step leaves drains) (SrvSys.start n stored msgs) u) {i : Nat} (hi : i < n) (hn : (u.stream i).since = none) :
    (u.stream i).init ≠ .subscribed ∧ (u.stream i).sub = false ∧ (u.stream i).got ++ (u.stream i).chan <+: stored i := by
  induction hs with
  | refl => exact ⟨(fun e => by cases e), rfl, List.nil_prefix⟩
  | @step s t hs h ih =>
    have hI := srv_steps hs
    have hT := srv_step hI h
    have same : ∀ {j : Nat} {x : SrvStream}, x.since = (s.stream j).since → x.init = (s.stream j).init → x.sub = (s.stream j).sub → x.got ++ x.chan = (s.stream j).got ++ (s.stream j).chan →
        ((s.upd j x).stream i).since = none →
        ((s.upd j x).stream i).init ≠ .subscribed ∧ ((s.upd j x).stream i).sub = false ∧ ((s.upd j x).stream i).got ++ ((s.upd j x).stream i).chan <+: stored i := by
      intro j x h1 h2 h3 h4 hn
      rw [s.upd_field (·.since) h1] at hn
      rw [s.upd_field (·.init) h2, s.upd_field (·.sub) h3, s.upd_field (fun x => x.got ++ x.chan) h4]
      exact ih hn
    -- a step of stream `j` after which its place is given
    have at_ : ∀ {j : Nat} {x : SrvStream}, t = s.upd j x → x.since = (s.stream j).since → x.init ≠ .subscribed → x.sub = (s.stream j).sub →
        ((s.stream j).since = none → x.got ++ x.chan <+: stored j) → ((s.upd j x).stream i).since = none →
        ((s.upd j x).stream i).init ≠ .subscribed ∧ ((s.upd j x).stream i).sub = false ∧ ((s.upd j x).stream i).got ++ ((s.upd j x).stream i).chan <+: stored i := by
      intro j x _ h1 h2 h3 h4 hn
      rw [s.upd_field (·.since) h1] at hn
      rw [s.upd_field (·.sub) h3]
      by_cases e : i = j
      · subst e; rw [SrvSys.upd_same]; exact ⟨h2, (ih hn).2.1, h4 hn⟩
      · rw [SrvSys.upd_other s _ e]; exact ih hn
    cases h with
    | @push j m rest hj hp =>
      refine at_ (j := j) rfl rfl (by simp) rfl (fun _ => ?_) hn
      have hj : j < n := hI.size ▸ hj
      have k := (hI.ok j hj).items
      unfold SrvItems at k
      rw [hp] at k
      exact ⟨rest, by rw [k.1]; simp⟩
    | @check j hj hp =>
      refine at_ (j := j) rfl rfl (by simp) rfl (fun hn => ?_) hn
      have k := (hI.ok j (hI.size ▸ hj)).items
      unfold SrvItems at k
      rw [hp] at k
      exact ⟨[], k.1.symm⟩
    | @skip j hj hp =>
      refine at_ (j := j) rfl rfl (by simp) rfl (fun hn => ?_) hn
      have k := (hI.ok j (hI.size ▸ hj)).items
      unfold SrvItems at k
      rw [hp] at k
      exact ⟨[], k.1.symm⟩
    | @subscribe j hj hp =>
      by_cases e : i = j
      · subst e; rw [SrvSys.upd_same] at hn; cases hn
      · rw [SrvSys.upd_other s _ e] at hn ⊢; exact ih hn
    | @ready j hj hp =>
      by_cases e : i = j
      · subst e; rw [SrvSys.upd_same] at hn; exact absurd hp (ih hn).1
      · rw [SrvSys.upd_other s _ e] at hn ⊢; exact ih hn
    | @unsubscribe j hj hp =>
      by_cases e : i = j
      · subst e; rw [SrvSys.upd_same] at hn ⊢; exact ⟨(ih hn).1, rfl, (ih hn).2.2⟩
      · rw [SrvSys.upd_other s _ e] at hn ⊢; exact ih hn
    | @deliver j m hj hp hd =>
      by_cases e : i = j
      · subst e; rw [SrvSys.upd_same] at hn
        have := ((hI.ok i hi).dueSub hd).1
        rw [(ih hn).2.1] at this; cases this
      · rw [SrvSys.upd_other s _ e] at hn ⊢; exact ih hn
    | rlock => exact ih hn
    | begin => exact ih hn
    | finish => exact ih hn
    | read _ hc _ => exact same rfl rfl rfl (by rw [hc]; simp) hn
    | _ => exact same rfl rfl rfl rfl hn

/-- What a client has been sent at any time. -/
theorem srv_sent_any {n : Nat} {stored : Nat → List WMsg} {msgs : List WMsg} {leaves drains : Nat → Bool} {u : SrvSys}
    (hs : SrvSys.Steps (SrvSys.Step leaves drains) (SrvSys.start n stored msgs) u) {i : Nat} (hi : i < n) :
    ((u.stream i).since = none ∧ (u.stream i).got ++ (u.stream i).chan <+: stored i) ∨
    ∃ k l live, (u.stream i).since = some k ∧ (u.stream i).got ++ (u.stream i).chan = stored i ++ l ∧ l.filter isBlockItem = live.filter isBlockItem ∧ live <+: u.sent.drop k := by
  cases hn : (u.stream i).since with
  | none => exact .inl ⟨rfl, (srv_never hs hi hn).2.2⟩
  | some k =>
    refine .inr ?_
    have q := ((srv_steps hs).ok i hi).items
    unfold SrvItems at q
    split at q
    · rw [hn] at q; cases q.2.2
    · rw [hn] at q; cases q.2.2
    · obtain ⟨_, l, e, hl⟩ := q
      have := hl.pre
      rw [hn] at this
      exact ⟨k, l, l, rfl, e, rfl, this⟩
    · rcases q with ⟨_, _, _, e⟩ | ⟨a, b, e, hl⟩
      · rw [hn] at e; cases e
      · have := hl.pre
        rw [hn] at this
        exact ⟨k, _, a ++ b, rfl, e, by simp [isBlockItem], this⟩

/-! ## What a client reads -/

theorem pieces_items {bs : List WsArgs} {segs : List (WsArgs × List WMsg)} (h : Pieces bs segs) : (segs.flatMap Prod.snd).filter isBlockItem = segs.flatMap Prod.snd := by
  rw [List.filter_eq_self]
  intro m hm
  obtain ⟨s, hs, hm⟩ := List.mem_flatMap.mp hm
  obtain ⟨tb, ts, subs, _, e, h1, _⟩ := h.2 s hs
  rw [e] at hm
  rcases List.mem_cons.mp hm with rfl | hm
  · rfl
  · obtain ⟨id, _, rfl⟩ := h1 m hm; rfl

theorem json_block (o' : MapOrder) (l : List WMsg) : (l.map (WMsg.json o')).filter isBlockItem = (l.filter isBlockItem).map (WMsg.json o') := by
  rw [List.filter_map]
  congr 2
  funext m
  cases m <;> rfl

theorem stored_flat {fresh : List WsArgs} {f : WsArgs → WMsg} {o' : MapOrder} : (fresh.map f).map (WMsg.json o') = (fresh.map fun b => (b, [(f b).json o'])).flatMap Prod.snd := by
  induction fresh with
  | nil => rfl
  | cons b l ih => rw [List.map_cons, List.map_cons, List.map_cons, List.flatMap_cons, ← ih]; rfl

theorem Spec.Pieces.append {bs bs' : List WsArgs} {segs segs' : List (WsArgs × List WMsg)} (h : Pieces bs segs) (h' : Pieces bs' segs') : Pieces (bs ++ bs') (segs ++ segs') :=
  ⟨by rw [List.map_append, h.1, h'.1], fun s hs => (List.mem_append.mp hs).elim (h.2 s) (h'.2 s)⟩

theorem Spec.WsChain.publishable {cfg : Config} {n : Int} {bs : List WsArgs} (hc : WsChain cfg n bs) : ∀ b ∈ bs, Publishable b :=
  fun b hb => ⟨hc.textual b hb, hc.number b hb, hc.ids b hb, hc.agree b hb⟩

section
variable {cfg : Config} {n num : Int} {bs : List WsArgs} {ops : List WOp} {nc : Nat} {stored : Nat → List WMsg} {leaves drains : Nat → Bool} {u : SrvSys} {i : Nat} {req : Nat × Hash} {o' : MapOrder}

/-- What a client has received at any time is an answer to its request. -/
theorem serves_answers (hc : WsChain cfg n bs) (hs : SrvSys.Steps (SrvSys.Step leaves drains) (SrvSys.start nc stored (wsSentBy ops)) u) (hi : i < nc)
    (h : ServesFrom cfg num bs ops stored u i req) {ms : List WMsg} (hp : ms <+: (u.stream i).got.map (WMsg.json o')) : Answers cfg num bs req ms := by
  obtain ⟨older, known, fresh, new, pre, post, f, hbs, hreq, hops, hpre, hpost, hst, hf, hsince⟩ := h
  refine ⟨known, fresh ++ new, by rw [hbs, List.append_assoc], hreq, ?_⟩
  obtain ⟨segs, hsegs, hflat⟩ := hpost.pieces o'
  have hstored := stored_pieces (fun b hb => hc.publishable b (by rw [hbs]; simp [hb])) hf o'
  refine ⟨_, hstored.append hsegs, ?_⟩
  rw [List.flatMap_append, ← stored_flat, ← hst, ← hflat]
  have hp2 : ms <+: ((u.stream i).got ++ (u.stream i).chan).map (WMsg.json o') := hp.trans ((List.prefix_append _ _).map _)
  refine (hp2.filter _).trans ?_
  have hsf : ((stored i).map (WMsg.json o')).filter isBlockItem = (stored i).map (WMsg.json o') := by rw [hst, stored_flat]; exact pieces_items hstored
  rcases srv_sent_any hs hi with ⟨_, hpf⟩ | ⟨k, l, live, e1, e2, e3, e4⟩
  · have := (hpf.map (WMsg.json o')).filter isBlockItem
    rw [hsf] at this
    exact this.trans (List.prefix_append _ _)
  · rw [e2, List.map_append, List.filter_append, hsf]
    rw [List.prefix_append_right_inj, json_block, e3, ← json_block]
    have hk : k = (wsSentBy pre).length := by
      rcases hsince with h | h <;> rw [e1] at h <;> cases h
      rfl
    have hsent : u.sent <+: wsSentBy pre ++ wsSentBy post := by
      rw [← hpre.append, ← hops]
      exact ⟨_, (srv_steps hs).msgs⟩
    have hd : u.sent.drop k <+: wsSentBy post := by
      obtain ⟨t, ht⟩ := hsent
      have h2 := congrArg (List.drop k) ht
      rw [hk, List.drop_left, List.drop_append] at h2
      rw [hk]; exact ⟨_, h2⟩
    have := ((e4.trans hd).map (WMsg.json o')).filter isBlockItem
    rw [hflat, pieces_items hsegs, ← hflat] at this
    exact this

/-- A client that stays has received all of it when the server is at rest. -/
theorem serves_all (hc : WsChain cfg n bs) (hs : SrvSys.Steps (SrvSys.Step leaves drains) (SrvSys.start nc stored (wsSentBy ops)) u) (hi : i < nc)
    (h : ServesFrom cfg num bs ops stored u i req) (hl : leaves i = false) (hr : u.AtRest leaves drains) (hno : ∀ j, j < nc → ¬ Abandoned drains u j) :
    ∀ known rest, bs = known ++ rest → req = tip num cfg.lastHash known → AllInTurn rest ((u.stream i).got.map (WMsg.json o')) := by
  obtain ⟨older, known, fresh, new, pre, post, f, hbs, hreq, hops, hpre, hpost, hst, hf, hsince⟩ := h
  intro known' rest' e1 e2
  have e3 := (tip_inj hc e1 (by rw [hbs, List.append_assoc]) (e2.symm.trans hreq)).2
  rw [e3]
  obtain ⟨segs, hsegs, hflat⟩ := hpost.pieces o'
  have hstored := stored_pieces (fun b hb => hc.publishable b (by rw [hbs]; simp [hb])) hf o'
  refine ⟨_, hstored.append hsegs, ?_⟩
  rw [List.flatMap_append, ← stored_flat, ← hst, ← hflat]
  obtain ⟨hsub, a, b, q1, q2⟩ := srv_at_rest hs hi hl hr
  have hsf : ((stored i).map (WMsg.json o')).filter isBlockItem = (stored i).map (WMsg.json o') := by rw [hst, stored_flat]; exact pieces_items hstored
  have hk : (u.stream i).since.getD 0 = (wsSentBy pre).length := by
    rcases hsince with h | h
    · rw [(srv_never hs hi h).2.1] at hsub; cases hsub
    · rw [h]; rfl
  have hsent : u.sent = wsSentBy ops := by
    rcases C100_partial hs hr with ⟨j, hj, hab⟩ | hd
    · exact absurd hab (hno j hj)
    · exact hd.producer.2
  rw [hk, hsent, hops, hpre.append, List.drop_left] at q1
  rw [q2, List.append_assoc, List.map_append, List.filter_append, hsf]
  congr 1
  have : (a ++ .ready :: b).filter isBlockItem = (a ++ b).filter isBlockItem := by simp [isBlockItem]
  rw [json_block, this, ← json_block, q1, hflat]
  exact pieces_items hsegs

end

/-! ## C123 -/

section
variable {C : Codec} {env : Env} {o : MapOrder} {cfg : Config} {n num : Int} {bs : List WsArgs} {ops : List WOp} {nc : Nat} {stored : Nat → List WMsg} {leaves drains : Nat → Bool}

/-- The consumer has made its connections to subscriptions of the server: what has arrived is what the server has sent on it so far, or a part of that. -/
def Spec.ConnectedTo (cfg : Config) (num : Int) (bs : List WsArgs) (ops : List WOp) (nc : Nat) (stored : Nat → List WMsg) (u : SrvSys) (w : WWhole) (k i : Nat) : Prop :=
  i < nc ∧ ServesFrom cfg num bs ops stored u i (w.req k) ∧ ∃ o', items (w.came k) <+: (u.stream i).got.map (WMsg.json o')

/-- **C123**: a server, given blocks one after the other, serves any number of clients; a consumer connects to it, loses the connection and connects again, any number of times. If the application
hands out on each request the blocks that follow the position asked for, up to those given to the feed when the client is subscribed, no goroutine of the consumer is ever about to fault, and its subscribers
have at any moment seen an initial part of the chain, each block once, in order and exactly. -/
theorem C123_served (hc : WsChain cfg n bs) {u : SrvSys} (hu : SrvSys.Steps (SrvSys.Step leaves drains) (SrvSys.start nc stored (wsSentBy ops)) u)
    {w0 w : WWhole} (h0 : WWhole.start cfg num = .ok w0) (hs : WWhole.Steps C env o w0 w) (hcl : ∀ k, Clean (w.came k))
    (hcon : ∀ k, k < w.life.made → ∃ i, ConnectedTo cfg num bs ops nc stored u w k i) :
    ¬ w.Faulting C env o ∧ (∃ seen, seen <+: bs ∧ WsSaw bs seen w.sys.omp.log ∧ (w.sys.Drained → w.conn.request = tip num cfg.lastHash seen)) ∧
    (rests C env o w → w.sys.Drained ∧ ((w.life.place = .ended ∧ w.life.quit = true) ∨ ∃ k, listens w k)) := by
  have hans : ∀ k, k < w.life.made → Answers cfg num bs (w.req k) (items (w.came k)) := by
    intro k hk
    obtain ⟨i, h1, h2, o', h3⟩ := hcon k hk
    exact serves_answers hc hu h1 h2 h3
  obtain ⟨g1, g2⟩ := C122_served hc h0 hs hcl hans
  refine ⟨g1, g2, fun hst => ?_⟩
  obtain ⟨r1, _, r3⟩ := C122_rest hc h0 hs hcl hans hst
  exact ⟨r1, r3⟩

/-- **C123**, the end: if moreover the newest connection stays, the server and the consumer can do nothing more by themselves, and all that the server has sent on the newest connection has arrived, the subscribers have seen the whole chain. -/
theorem C123_all (hc : WsChain cfg n bs) {u : SrvSys} (hu : SrvSys.Steps (SrvSys.Step leaves drains) (SrvSys.start nc stored (wsSentBy ops)) u)
    {w0 w : WWhole} (h0 : WWhole.start cfg num = .ok w0) (hs : WWhole.Steps C env o w0 w) (hcl : ∀ k, Clean (w.came k))
    (hcon : ∀ k, k < w.life.made → ∃ i, ConnectedTo cfg num bs ops nc stored u w k i) (hst : rests C env o w)
    (hr : u.AtRest leaves drains) (hno : ∀ j, j < nc → ¬ Abandoned drains u j) {k i : Nat} (hk : k + 1 = w.life.made) (hi : i < nc) (hl : leaves i = false)
    (hserves : ServesFrom cfg num bs ops stored u i (w.req k)) {o' : MapOrder} (hcame : items (w.came k) = (u.stream i).got.map (WMsg.json o')) : WsSaw bs bs w.sys.omp.log := by
  refine C122_all hc h0 hs hcl ?_ hst hk ?_
  · intro k hk
    obtain ⟨i, h1, h2, o', h3⟩ := hcon k hk
    exact serves_answers hc hu h1 h2 h3
  · rw [hcame]
    exact serves_all hc hu hi hserves hl hr hno

end

/-! ## Example -/

theorem srv_grows {leaves drains : Nat → Bool} {s t : SrvSys} (h : SrvSys.Steps (SrvSys.Step leaves drains) s t) (i : Nat) :
    (s.stream i).got ++ (s.stream i).chan <+: (t.stream i).got ++ (t.stream i).chan := by
  induction h with
  | refl => exact List.prefix_refl _
  | @step t v _ h ih =>
    refine ih.trans ?_
    have key : ∀ {j : Nat} {x : SrvStream}, (t.stream j).got ++ (t.stream j).chan <+: x.got ++ x.chan →
        (t.stream i).got ++ (t.stream i).chan <+: ((t.upd j x).stream i).got ++ ((t.upd j x).stream i).chan := by
      intro j x hx
      by_cases e : i = j
      · subst e; rw [SrvSys.upd_same]; exact hx
      · rw [SrvSys.upd_other t _ e]; exact List.prefix_refl _
    cases h with
    | push => exact key ⟨_, by rw [List.append_assoc]⟩
    | ready => exact key ⟨_, by rw [List.append_assoc]⟩
    | deliver => exact key ⟨_, by rw [List.append_assoc]⟩
    | read _ hc _ => exact key (by rw [hc]; exact ⟨[], by simp⟩)
    | rlock => exact List.prefix_refl _
    | begin => exact List.prefix_refl _
    | finish => exact List.prefix_refl _
    | _ => exact key (List.prefix_refl _)

theorem srv_since_steps {leaves drains : Nat → Bool} {s t : SrvSys} (h : SrvSys.Steps (SrvSys.Step leaves drains) s t) {i : Nat}
    (hi : (s.stream i).init = .subscribed ∨ (s.stream i).init = .done) : (t.stream i).since = (s.stream i).since := by
  have : ((t.stream i).init = .subscribed ∨ (t.stream i).init = .done) ∧ (t.stream i).since = (s.stream i).since := by
    induction h with
    | refl => exact ⟨hi, rfl⟩
    | step _ h ih =>
      obtain ⟨g1, g2⟩ := srv_since h ih.1
      exact ⟨g1, g2.trans ih.2⟩
  exact this.2

/-- The calls: the first block, and then the second one. -/
def exLOps : List WOp := [.add .plain exEA] ++ exEPost

/-- What the application hands out: to the first client the first block, to the second nothing. -/
def exLStored (i : Nat) : List WMsg := if i = 0 then [exEStored (exEA, exWS)] else []

theorem exL_pre : PublishesInTurn ([] ++ [] ++ [(exEA, exWS)]) [.add .plain exEA] := by
  refine ⟨[((exEA, exWS), [.add .plain exEA])], rfl, ?_, rfl⟩
  intro s hs
  rw [List.mem_singleton] at hs; subst hs
  refine ⟨exT_chain.publishable _ (by simp [exTBs]), .plain, [], rfl, ?_⟩
  intro id
  exact ⟨(fun h => by cases h), fun h => absurd h (exE_noIds id)⟩

theorem exL_post : PublishesInTurn [(exWA2, exWS)] exEPost := by
  refine ⟨[((exWA2, exWS), exEPost)], rfl, ?_, rfl⟩
  intro s hs
  rw [List.mem_singleton] at hs; subst hs
  refine ⟨exT_chain.publishable _ (by simp [exTBs]), .rev, [exWId 2], rfl, ?_⟩
  intro id
  rw [List.mem_singleton]
  exact (exW_ids2 id).symm

/-- The server has published the first block, and then both clients have been subscribed and have been sent `ready`. -/
theorem exL_server (leaves drains : Nat → Bool) : ∃ s, SrvSys.Steps (SrvSys.Step leaves drains) (SrvSys.start 2 exLStored (wsSentBy exLOps)) s ∧
    s.stream 0 = ⟨.done, .idle, [exEStored (exEA, exWS), .ready], true, false, true, false, [], some 1⟩ ∧
    s.stream 1 = ⟨.done, .idle, [.ready], true, false, true, false, [], some 1⟩ := by
  obtain ⟨m, rest, hm⟩ : ∃ m rest, wsSentBy exLOps = m :: rest := ⟨_, _, rfl⟩
  rw [hm]
  obtain ⟨s1, a1, n1, p1, f1, e1⟩ : ∃ s1, SrvSys.Step leaves drains (SrvSys.start 2 exLStored (m :: rest)) s1 ∧ s1.n = 2 ∧ s1.prod = .holding m ∧
      s1.stream = (SrvSys.start 2 exLStored (m :: rest)).stream ∧ s1.sent = [] := ⟨_, .rlock rfl rfl (fun j _ => rfl), rfl, rfl, rfl, rfl⟩
  obtain ⟨s2, a2, n2, p2, f2, e2⟩ : ∃ s2, SrvSys.Step leaves drains s1 s2 ∧ s2.n = 2 ∧ s2.prod = .sending m ∧
      s2.stream = (SrvSys.start 2 exLStored (m :: rest)).stream ∧ s2.sent = [m] := ⟨_, .begin p1, n1, rfl, by rw [f1]; rfl, by rw [e1]; rfl⟩
  obtain ⟨s3, a3, n3, f3, e3⟩ : ∃ s3, SrvSys.Step leaves drains s2 s3 ∧ s3.n = 2 ∧
      s3.stream = (SrvSys.start 2 exLStored (m :: rest)).stream ∧ s3.sent = [m] := ⟨_, .finish p2 (fun j _ => by rw [f2]; rfl), n2, f2, e2⟩
  obtain ⟨s4, a4, n4, f4, g4, e4⟩ : ∃ s4, SrvSys.Step leaves drains s3 s4 ∧ s4.n = 2 ∧
      s4.stream 0 = ⟨.stored [], .idle, [exEStored (exEA, exWS)], true, false, false, false, [], none⟩ ∧ s4.stream 1 = ⟨.stored [], .idle, [], true, false, false, false, [], none⟩ ∧ s4.sent = [m] :=
    ⟨_, .push (i := 0) (m := exEStored (exEA, exWS)) (rest := []) (by omega) (by rw [f3]; rfl) (by rw [f3]; exact .inl (Nat.zero_le _)) (by rw [f3]; exact Nat.zero_lt_succ _) (by rw [f3]; rfl),
      n3, by rw [SrvSys.upd_same, f3]; rfl, by rw [SrvSys.upd_other _ _ (by decide), f3]; rfl, e3⟩
  obtain ⟨s5, a5, n5, f5, g5, e5⟩ : ∃ s5, SrvSys.Step leaves drains s4 s5 ∧ s5.n = 2 ∧
      s5.stream 0 = ⟨.checked, .idle, [exEStored (exEA, exWS)], true, false, false, false, [], none⟩ ∧ s5.stream 1 = ⟨.stored [], .idle, [], true, false, false, false, [], none⟩ ∧ s5.sent = [m] :=
    ⟨_, .check (i := 0) (by omega) (by rw [f4]) (by rw [f4]), n4, by rw [SrvSys.upd_same, f4], by rw [SrvSys.upd_other _ _ (by decide), g4], e4⟩
  obtain ⟨s6, a6, n6, f6, g6, e6⟩ : ∃ s6, SrvSys.Step leaves drains s5 s6 ∧ s6.n = 2 ∧
      s6.stream 0 = ⟨.subscribed, .idle, [exEStored (exEA, exWS)], true, false, true, false, [], some 1⟩ ∧ s6.stream 1 = ⟨.stored [], .idle, [], true, false, false, false, [], none⟩ ∧ s6.sent = [m] :=
    ⟨_, .subscribe (i := 0) (by omega) (by rw [f5]), n5, by rw [SrvSys.upd_same, f5, e5]; rfl, by rw [SrvSys.upd_other _ _ (by decide), g5], e5⟩
  obtain ⟨s7, a7, n7, f7, g7, e7⟩ : ∃ s7, SrvSys.Step leaves drains s6 s7 ∧ s7.n = 2 ∧
      s7.stream 0 = ⟨.done, .idle, [exEStored (exEA, exWS), .ready], true, false, true, false, [], some 1⟩ ∧ s7.stream 1 = ⟨.stored [], .idle, [], true, false, false, false, [], none⟩ ∧ s7.sent = [m] :=
    ⟨_, .ready (i := 0) (by omega) (by rw [f6]) (by rw [f6]; show 1 < 1000; decide) (by rw [f6]), n6, by rw [SrvSys.upd_same, f6]; rfl, by rw [SrvSys.upd_other _ _ (by decide), g6], e6⟩
  obtain ⟨s8, a8, n8, f8, g8, e8⟩ : ∃ s8, SrvSys.Step leaves drains s7 s8 ∧ s8.n = 2 ∧
      s8.stream 0 = s7.stream 0 ∧ s8.stream 1 = ⟨.checked, .idle, [], true, false, false, false, [], none⟩ ∧ s8.sent = [m] :=
    ⟨_, .check (i := 1) (by omega) (by rw [g7]) (by rw [g7]), n7, by rw [SrvSys.upd_other _ _ (by decide)], by rw [SrvSys.upd_same, g7], e7⟩
  obtain ⟨s9, a9, n9, f9, g9, e9⟩ : ∃ s9, SrvSys.Step leaves drains s8 s9 ∧ s9.n = 2 ∧
      s9.stream 0 = s7.stream 0 ∧ s9.stream 1 = ⟨.subscribed, .idle, [], true, false, true, false, [], some 1⟩ ∧ s9.sent = [m] :=
    ⟨_, .subscribe (i := 1) (by omega) (by rw [g8]), n8, by rw [SrvSys.upd_other _ _ (by decide), f8], by rw [SrvSys.upd_same, g8, e8]; rfl, e8⟩
  refine ⟨_, .step (.step (.step (.step (.step (.step (.step (.step (.step (.step .refl a1) a2) a3) a4) a5) a6) a7) a8) a9)
    (.ready (i := 1) (by omega) (by rw [g9]) (by rw [g9]; show 0 < 1000; decide) (by rw [g9])), by rw [SrvSys.upd_other _ _ (by decide), f9, f7], by rw [SrvSys.upd_same, g9]; rfl⟩

/-- The consumer connects as the first client, the connection breaks when it has the first block, and it connects as the second client: the hypotheses of C123 hold, and its subscribers have seen both blocks. -/
example : ∃ u w0 w, SrvSys.Steps (SrvSys.Step (fun _ => false) (fun _ => true)) (SrvSys.start 2 exLStored (wsSentBy exLOps)) u ∧ WWhole.start exSysCfg 4 = .ok w0 ∧
    WWhole.Steps Avro.codec exEnv .plain w0 w ∧ w.life.made = 2 ∧ (items (w.came 0)).length = 2 ∧
    (∀ k, k < w.life.made → ∃ i, ConnectedTo exSysCfg 4 exTBs exLOps 2 exLStored u w k i) ∧ WsSaw exTBs exTBs w.sys.omp.log := by
  obtain ⟨s, hs, f0, f1⟩ := exL_server (fun _ => false) (fun _ => true)
  obtain ⟨u, hu, hr⟩ := srv_rests (leaves := fun _ => false) (drains := fun _ => true) s
  have hall := hs.trans hu
  -- the first connection
  have hgot0 : [exEStored (exEA, exWS), .ready] <+: (u.stream 0).got := by
    have h1 := srv_grows hu 0
    rw [f0] at h1
    have hch : (u.stream 0).chan = [] := by
      cases hc : (u.stream 0).chan with
      | nil => rfl
      | cons m rest => exact absurd (.read (by rw [(srv_steps hall).size]; decide) hc (.inr rfl)) (hr _)
    rw [hch, List.append_nil] at h1
    exact h1
  have serves0 : ServesFrom exSysCfg 4 exTBs exLOps exLStored u 0 (tip 4 exSysCfg.lastHash []) :=
    ⟨[], [], [(exEA, exWS)], [(exWA2, exWS)], _, _, exEStored, rfl, rfl, rfl, exL_pre, exL_post, rfl, exE_exact, .inr (by
      rw [srv_since_steps hu (by rw [f0]; exact .inr rfl), f0]; rfl)⟩
  have serves1 : ServesFrom exSysCfg 4 exTBs exLOps exLStored u 1 (tip 4 exSysCfg.lastHash [(exEA, exWS)]) :=
    ⟨[], [(exEA, exWS)], [], [(exWA2, exWS)], _, _, exEStored, rfl, rfl, rfl, exL_pre, exL_post, rfl, (fun b hb => by cases hb), .inr (by
      rw [srv_since_steps hu (by rw [f1]; exact .inr rfl), f1]; rfl)⟩
  have hp0 : [(exEStored (exEA, exWS)).json .plain, .ready] <+: (u.stream 0).got.map (WMsg.json .plain) := hgot0.map (WMsg.json .plain)
  have hin0 : InTurn exTBs [(exEStored (exEA, exWS)).json .plain, .ready] := by
    obtain ⟨known, rest, e1, e2, h⟩ := serves_answers exT_chain hall (by decide) serves0 hp0
    rw [(tip_inj exT_chain (k2 := []) (r2 := exTBs) e1 rfl e2.symm).2] at h
    exact h
  obtain ⟨w0, w1, seen, rest, h1⟩ := ex_first hin0
  -- the first block has been seen
  have hseen : seen = [(exEA, exWS)] ∧ rest = [(exWA2, exWS)] := by
    have hc : WsChain exSysCfg 4 [(exEA, exWS)] := by
      have h := exT_chain
      have sub : ∀ b ∈ [(exEA, exWS)], b ∈ exTBs := fun b hb => by rw [List.mem_singleton] at hb; subst hb; simp [exTBs]
      exact ⟨fun b hb => h.textual b (sub b hb), fun b hb => h.number b (sub b hb), fun b hb => h.ids b (sub b hb), fun b hb => h.agree b (sub b hb),
        fun b hb b' hb' => h.apart b (sub b hb) b' (sub b' hb'), fun b hb => h.weight b (sub b hb), ⟨rfl, rfl, show (200 : Int) < 300 by decide, trivial⟩,
        by show [Hash.zero, exHash 2, exHash 1].Nodup; decide, fun b hb => h.whitelist b (sub b hb)⟩
    have hpc := stored_pieces (fun b hb => hc.publishable b hb) exE_exact .plain
    have hall1 : AllInTurn [(exEA, exWS)] [(exEStored (exEA, exWS)).json .plain, .ready] := ⟨_, hpc, rfl⟩
    have hit : items (w1.came 0) = [(exEStored (exEA, exWS)).json .plain, .ready] := by rw [h1.came]; exact items_of _
    have hsaw := C122_all hc h1.start h1.steps (fun k => by
        rw [h1.came]; show Clean (if k = 0 then _ else _)
        split
        · exact clean_of _
        · intro f hf; cases hf)
      (fun k hk => by
        rw [h1.made] at hk
        obtain rfl : k = 0 := by omega
        refine ⟨[], [(exEA, exWS)], rfl, h1.req, ?_⟩
        rw [hit]
        obtain ⟨segs, g1, g2⟩ := hall1
        exact ⟨segs, g1, by rw [g2]; exact List.prefix_refl _⟩) h1.rested (k := 0) (by rw [h1.made])
      (fun known rest e1 e2 => by
        rw [(tip_inj hc (k2 := []) (r2 := [(exEA, exWS)]) e1 rfl (e2.symm.trans h1.req)).2, hit]
        exact hall1)
    have hlen : seen.length = 1 := h1.saw.length.symm.trans hsaw.length
    have e := h1.split
    match seen, hlen with
    | [x], _ =>
      simp only [exTBs, List.cons_append, List.nil_append, List.cons.injEq] at e
      exact ⟨by rw [← e.1], e.2.symm⟩
  obtain ⟨rfl, rfl⟩ := hseen
  -- the second connection
  have hin1 : InTurn [(exWA2, exWS)] ((u.stream 1).got.map (WMsg.json .plain)) := by
    obtain ⟨known, rest, e1, e2, h⟩ := serves_answers (o' := .plain) exT_chain hall (by decide) serves1 (List.prefix_refl _)
    rw [(tip_inj exT_chain e1 h1.split e2.symm).2] at h
    exact h
  obtain ⟨w2, h2⟩ := h1.second hin0 hin1
  have hcon : ∀ k, k < w2.life.made → ∃ i, ConnectedTo exSysCfg 4 exTBs exLOps 2 exLStored u w2 k i := by
    intro k hk
    rw [h2.made] at hk
    rcases (by omega : k = 0 ∨ k = 1) with rfl | rfl
    · exact ⟨0, by decide, by rw [h2.req0]; exact serves0, .plain, by rw [h2.came0]; exact hp0⟩
    · exact ⟨1, by decide, by rw [h2.req1]; exact serves1, .plain, by rw [h2.came1]; exact List.prefix_refl _⟩
  exact ⟨u, w0, w2, hall, h1.start, h2.steps, h2.made, by rw [h2.came0]; rfl, hcon, C123_all exT_chain hall h1.start h2.steps h2.clean hcon h2.rested hr
    (fun j _ h => by have := h.2.1; cases this) (k := 1) (by rw [h2.made]) (i := 1) (by decide) rfl (by rw [h2.req1]; exact serves1) h2.came1⟩

end Verif
