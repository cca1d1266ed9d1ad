import Verif.Props.WebsocketSystem
import Verif.Props.Streams
/-!
# C105: from a producer through a websocket server to the subscribers of a consumer
-/
namespace Verif
open Spec

/-! ## Specification -/

/-- A stored block as the server sends it: a block with the contents of the one published. -/
def Spec.StoredForm (b : WsArgs) (m : WMsg) : Prop := ∃ o x, m = .batch (streamsBatch o x) ∧ WsExact b.1 b.2 x

/-- A client that stays is subscribed to the feed between `s` and `t`, when the messages of the calls `pre` have been given to the feed. -/
structure Spec.SubscribedAfter (i : Nat) (pre : List WOp) (s t : SrvSys) : Prop where
  before : (s.stream i).sub = false
  after : (t.stream i).sub = true
  sent : s.sent = wsSentBy pre

/-! ## The producer -/

/-- A producer that has been given all sub-batches expects none. -/
theorem Spec.WsPublishes.expected {bs : List WsArgs} {ops : List WOp} (h : WsPublishes bs ops) (hn : (bs.map (·.1.hash)).Nodup) :
    (ops.foldl WOp.apply WProducer.new).expected = GMap.empty := by
  have hnone : ∀ id, (ops.foldl WOp.apply WProducer.new).expected.get? id = none := by
    intro id
    cases hx : (ops.foldl WOp.apply WProducer.new).expected.get? id with
    | none => rfl
    | some y =>
      exfalso
      obtain ⟨l, o, a, r, e, h1, h2, h3⟩ := (expected_owner ops id y).mp hx
      obtain ⟨b, hb, rfl⟩ := h.block (o := o) (a := a) (by rw [e]; simp)
      obtain ⟨l', o', r', e', hm⟩ := h.all b hb id h1
      have hal := h.alone hn e
      have hal' := h.alone hn e'
      have hr : r = r' := by
        have e2 : l ++ .add o b.1 :: r = l' ++ .add o' b.1 :: r' := by rw [← e, ← e']
        rcases List.append_eq_append_iff.mp e2 with ⟨c, e3, e4⟩ | ⟨c, e3, e4⟩
        · cases c with
          | nil => simp at e4; exact e4.2
          | cons x c =>
            simp only [List.cons_append, List.cons.injEq] at e4
            exact absurd rfl (hal' o b.1 (by rw [e3, ← e4.1]; simp))
        · cases c with
          | nil => simp at e4; exact e4.2.symm
          | cons x c =>
            simp only [List.cons_append, List.cons.injEq] at e4
            exact absurd rfl (hal o' b.1 (by rw [e3, ← e4.1]; simp))
      subst hr
      exact h3 _ hm rfl
  apply GMap.ext_entries
  show _ = []
  cases he : (ops.foldl WOp.apply WProducer.new).expected.entries with
  | nil => rfl
  | cons e es =>
    exfalso
    have := hnone e.1
    rw [GMap.get?_eq_none_iff] at this
    exact this (by simp [GMap.keys, he])

theorem foldl_apply_sent (ops : List WOp) (e : GMap Hash Hash) (x y : List WMsg) :
    ops.foldl WOp.apply ⟨e, x ++ y⟩ = ⟨(ops.foldl WOp.apply ⟨e, y⟩).expected, x ++ (ops.foldl WOp.apply ⟨e, y⟩).sent⟩ := by
  induction ops generalizing e y with
  | nil => rfl
  | cons op ops ih =>
    rw [List.foldl_cons, List.foldl_cons]
    cases op with
    | add o a =>
      simp only [WOp.apply, wsAddBlock, WProducer.addBlock, List.append_assoc]
      exact ih _ _
    | send id s =>
      simp only [WOp.apply, WProducer.sendBatch]
      cases e.get? id with
      | none => exact ih _ _
      | some h => simp only [List.append_assoc]; exact ih _ _

/-- Then the messages of the following calls are those of a new producer. -/
theorem Spec.WsPublishes.sent_append {bs : List WsArgs} {pre : List WOp} (h : WsPublishes bs pre) (hn : (bs.map (·.1.hash)).Nodup) (post : List WOp) :
    wsSentBy (pre ++ post) = wsSentBy pre ++ wsSentBy post := by
  unfold wsSentBy
  rw [List.foldl_append]
  have e : pre.foldl WOp.apply WProducer.new = ⟨GMap.empty, (pre.foldl WOp.apply WProducer.new).sent ++ []⟩ := by
    have := h.expected hn
    cases hp : pre.foldl WOp.apply WProducer.new with
    | mk a b => rw [hp] at this; simp only at this; subst this; simp
  rw [e, foldl_apply_sent]
  simp [WProducer.new]

/-! ## The server -/

/-- A client that stays has, when the server is at rest, been sent the stored blocks, `ready` and all messages since it was subscribed. -/
theorem srv_at_rest {n : Nat} {stored : Nat → List WMsg} {msgs : List WMsg} {leaves drains : Nat → Bool} {u : SrvSys}
    (hall : SrvSys.Steps (SrvSys.Step leaves drains) (SrvSys.start n stored msgs) u) {i : Nat} (hi : i < n) (hl : leaves i = false) (hr : u.AtRest leaves drains) :
    (u.stream i).sub = true ∧ ∃ a b, a ++ b = u.sent.drop ((u.stream i).since.getD 0) ∧ (u.stream i).got = stored i ++ a ++ .ready :: b := by
  have hI := srv_steps hall
  have k := hI.ok i hi
  have hn := hI.size
  have hg := srv_stays hall i hl
  have hch : (u.stream i).chan = [] := by
    cases hc : (u.stream i).chan with
    | nil => rfl
    | cons m rest => exact absurd (.read (hn ▸ hi) hc (.inl hg)) (hr _)
  have hwi : (u.stream i).watch = .idle := by
    refine Classical.byContradiction (fun hw => ?_)
    have := k.gone hw
    rw [hg] at this; cases this
  have hopen : (u.stream i).chanOpen = true := by
    cases ho : (u.stream i).chanOpen with
    | true => rfl
    | false => rcases k.shut.mp ho with e | e <;> rw [hwi] at e <;> cases e
  have hcap : (u.stream i).chan.length < subchCap := by rw [hch]; decide
  have hdue : (u.stream i).due = false := by
    cases hd : (u.stream i).due with
    | false => rfl
    | true =>
      obtain ⟨_, m, hm⟩ := k.dueSub hd
      exact absurd (.deliver (hn ▸ hi) hm hd hcap hopen) (hr _)
  have hdone : (u.stream i).init = .done := by
    cases hin : (u.stream i).init with
    | done => rfl
    | subscribed => exact absurd (.ready (hn ▸ hi) hin hcap hopen) (hr _)
    | checked => exact absurd (.subscribe (hn ▸ hi) hin) (hr _)
    | stored rest =>
      cases rest with
      | nil => exact absurd (.check (hn ▸ hi) hin hg) (hr _)
      | cons m rest => exact absurd (.push (hn ▸ hi) hin (.inl (by rw [hch]; decide)) hcap hopen) (hr _)
  have hsub : (u.stream i).sub = true := by
    cases hsb : (u.stream i).sub with
    | true => rfl
    | false => have := k.stays hdone hsb; rw [hg] at this; cases this
  have q := k.items
  unfold SrvItems at q
  rw [hdone] at q
  rcases q with ⟨_, _, h4⟩ | ⟨a, b, e, hlive⟩
  · have := h4.1; rw [hg] at this; cases this
  · have := hlive.all hsub hdue
    refine ⟨hsub, a, b, this, ?_⟩
    rw [hch, List.append_nil] at e
    exact e.trans (by simp)

/-- A client that stays and is subscribed has, when the server is at rest, been sent the stored blocks, `ready` and all messages since. -/
theorem srv_received {n : Nat} {stored : Nat → List WMsg} {msgs : List WMsg} {leaves drains : Nat → Bool} {s t u : SrvSys}
    (hs : SrvSys.Steps (SrvSys.Step leaves drains) (SrvSys.start n stored msgs) s) (h : SrvSys.Step leaves drains s t)
    {i : Nat} (hi : i < n) (hl : leaves i = false) (h1 : (s.stream i).sub = false) (h2 : (t.stream i).sub = true)
    (hu : SrvSys.Steps (SrvSys.Step leaves drains) t u) (hr : u.AtRest leaves drains) :
    ∃ a b, a ++ b = u.sent.drop s.sent.length ∧ (u.stream i).got = stored i ++ a ++ .ready :: b := by
  obtain ⟨_, a, b, e1, e2⟩ := srv_at_rest ((SrvSys.Steps.step hs h).trans hu) hi hl hr
  rw [(srv_subscribed hs h h1 h2 hu).2.2] at e1
  exact ⟨a, b, e1, e2⟩

/-! ## The consumer -/

theorem idsOf_stored (o o' : MapOrder) (x : WsBlock) : idsOf ((streamsBatch o x).json o') = [] := by
  have e : ((streamsBatch o x).json o').batches.entries = [] := by
    show (jsonMap o' 1 GMap.empty).entries = []
    rw [jsonMap_utf8 o' 1 _ (by simp [GMap.keys, GMap.empty])]
    have := (o'.perm 1 (GMap.empty : GMap GoStr Hash).entries).length_eq
    exact List.length_eq_zero_iff.mp this
  unfold idsOf; rw [e]; rfl

/-- A stored block is one of the forms of the published one. -/
theorem Spec.WsExact.form {a : BlockArgs} {subs : Hash → SubArgs} {x : WsBlock} (hx : WsExact a subs x) (ht : Textual a subs)
    (hn : InInt64 a.number) (o o' : MapOrder) (ts : Hash → TSub) : WsForm a subs ((streamsBatch o x).json o') ts := by
  refine .stored o o' ts hx hn ?_ ?_
  · intro k hk
    rw [← GMap.contains_iff_mem_keys] at hk
    cases hg : x.values.get? k with
    | none => rw [GMap.get?_eq_none_iff] at hg; rw [GMap.contains_iff_mem_keys] at hk; exact absurd hk hg
    | some v =>
      rcases (hx.values k v).mp hg with h | ⟨p, id, h1, h2⟩
      · exact ht.values k (by
          apply Classical.byContradiction; intro hc; rw [← GMap.get?_eq_none_iff] at hc; rw [hc] at h; cases h)
      · exact ht.subValues p id h1 k (by
          apply Classical.byContradiction; intro hc; rw [← GMap.get?_eq_none_iff] at hc; rw [hc] at h2; cases h2)
  · intro k hk
    rw [← GMap.contains_iff_mem_keys] at hk
    rcases (hx.deletes k).mp hk with h | ⟨p, id, h1, h2⟩
    · exact ht.deletes k h
    · exact ht.subDeletes p id h1 k h2

theorem once_of_nodup {ms : List WMsg} (h : (ms.filterMap batchHash).Nodup) (b : TBatch) : ∀ l r, ms = l ++ .batch b :: r → WMsg.batch b ∉ l := by
  intro l r e hmem
  rw [e, List.filterMap_append, List.filterMap_cons] at h
  simp only [batchHash] at h
  have hp := (List.perm_middle.nodup_iff.mp h)
  rw [List.nodup_cons] at hp
  exact hp.1 (List.mem_append_left _ (List.mem_filterMap.mpr ⟨_, hmem, rfl⟩))

theorem json_hashes (o' : MapOrder) (ms : List WMsg) : (ms.map (WMsg.json o')).filterMap batchHash = ms.filterMap batchHash := by
  rw [List.filterMap_map]
  congr 1
  funext m
  cases m <;> rfl

section
variable {known fresh new : List WsArgs} {pre post : List WOp} {f : WsArgs → WMsg} {a b : List WMsg} {o' : MapOrder}

theorem stored_hashes (hf : ∀ b ∈ fresh, StoredForm b (f b)) : (fresh.map f).filterMap batchHash = fresh.map (·.1.hash) := by
  induction fresh with
  | nil => rfl
  | cons b l ih =>
    obtain ⟨o, x, e, hx⟩ := hf b (by simp)
    rw [List.map_cons, List.filterMap_cons, e, List.map_cons, ih (fun b hb => hf b (by simp [hb]))]
    show _ :: _ = _
    congr 1
    exact hx.hash

/-- What a client receives is right for a consumer. -/
theorem received_carried (hpre : WsPublishes (known ++ fresh) pre) (hpost : WsPublishes new post)
    (hn : ((fresh ++ new).map (·.1.hash)).Nodup) (hw : ∀ b ∈ fresh ++ new, 0 ≤ b.1.weight) (hf : ∀ b ∈ fresh, StoredForm b (f b))
    (hab : a ++ b = wsSentBy post) :
    WsCarried (fresh ++ new) [(fresh.map f ++ a ++ .ready :: b).map (WMsg.json o')] ∧
    WsComplete (fresh ++ new) [(fresh.map f ++ a ++ .ready :: b).map (WMsg.json o')] := by
  have hnn : (new.map (·.1.hash)).Nodup := by
    rw [List.map_append] at hn; exact (List.nodup_append.mp hn).2.1
  have hapart : ∀ x ∈ fresh, ∀ y ∈ new, x.1.hash ≠ y.1.hash := by
    intro x hx y hy e
    rw [List.map_append] at hn
    exact (List.nodup_append.mp hn).2.2 _ (List.mem_map.mpr ⟨x, hx, rfl⟩) _ (List.mem_map.mpr ⟨y, hy, rfl⟩) e
  have hmem : ∀ m, m ∈ (fresh.map f ++ a ++ .ready :: b).map (WMsg.json o') ↔
      (∃ x ∈ fresh, m = (f x).json o') ∨ m ∈ (wsSentBy post).map (WMsg.json o') ∨ m = .ready := by
    intro m
    rw [← hab]
    simp only [List.mem_map, List.mem_append, List.mem_cons]
    constructor
    · rintro ⟨m', (⟨x, hx, rfl⟩ | h) | rfl | h, rfl⟩
      · exact .inl ⟨x, hx, rfl⟩
      · exact .inr (.inl ⟨m', .inl h, rfl⟩)
      · exact .inr (.inr rfl)
      · exact .inr (.inl ⟨m', .inr h, rfl⟩)
    · rintro (⟨x, hx, rfl⟩ | ⟨m', h | h, rfl⟩ | rfl)
      · exact ⟨f x, .inl (.inl ⟨x, hx, rfl⟩), rfl⟩
      · exact ⟨m', .inl (.inr h), rfl⟩
      · exact ⟨m', .inr (.inr h), rfl⟩
      · exact ⟨.ready, .inr (.inl rfl), rfl⟩
  have hhash : (((fresh.map f ++ a ++ .ready :: b).map (WMsg.json o')).filterMap batchHash).Nodup := by
    rw [json_hashes]
    have e : (fresh.map f ++ a ++ .ready :: b).filterMap batchHash = fresh.map (·.1.hash) ++ (wsSentBy post).filterMap batchHash := by
      rw [← hab]
      simp only [List.filterMap_append, List.filterMap_cons, batchHash, stored_hashes hf, List.append_assoc]
    rw [e, wsSentBy_hashes]
    have hp : (fresh.map (·.1.hash) ++ (post.filterMap addOf).map (·.hash)).Perm ((fresh ++ new).map (·.1.hash)) := by
      rw [List.map_append]
      refine List.Perm.append_left _ ?_
      have := hpost.adds.map (·.hash)
      rwa [List.map_map] at this
    exact hp.nodup_iff.mpr hn
  have hform : ∀ x ∈ fresh, ∃ o y, f x = .batch (streamsBatch o y) ∧ WsForm x.1 x.2 ((streamsBatch o y).json o') (fun _ => ⟨Hash.zero, Hash.zero, GMap.empty, []⟩) ∧
      ((streamsBatch o y).json o').hash = x.1.hash := by
    intro x hx
    obtain ⟨o, y, e, hy⟩ := hf x hx
    refine ⟨o, y, e, hy.form (hpre.textual x (by simp [hx])) (hpre.number x (by simp [hx])) o o' _, hy.hash⟩
  -- for each block its form
  have hall : ∀ x ∈ fresh ++ new, ∃ tb ts, WsForm x.1 x.2 tb ts ∧ OneBatch tb ts ((fresh.map f ++ a ++ .ready :: b).map (WMsg.json o')) ∧
      AllParts tb ts ((fresh.map f ++ a ++ .ready :: b).map (WMsg.json o')) := by
    intro x hx
    rcases List.mem_append.mp hx with hx | hx
    · obtain ⟨o, y, e, h1, h2⟩ := hform x hx
      refine ⟨_, _, h1, ⟨?_, once_of_nodup hhash _⟩, ?_⟩
      · intro m hm
        rcases (hmem m).mp hm with ⟨x', hx', rfl⟩ | hm | rfl
        · by_cases hxx : x'.1.hash = x.1.hash
          · have : x' = x := by
              obtain ⟨i, hi, rfl⟩ := List.mem_iff_getElem.mp hx
              obtain ⟨j, hj, rfl⟩ := List.mem_iff_getElem.mp hx'
              have hn' : (fresh.map (·.1.hash)).Nodup := by
                rw [List.map_append] at hn; exact (List.nodup_append.mp hn).1
              have e : (fresh.map (·.1.hash))[j]'(by simpa using hj) = (fresh.map (·.1.hash))[i]'(by simpa using hi) := by
                rw [List.getElem_map, List.getElem_map]; exact hxx
              have := (List.getElem_inj hn').mp e
              subst this; rfl
            subst this
            left
            rw [e]
            exact PartOf.batch
          · right
            obtain ⟨o2, y2, e2, h3, h4⟩ := hform x' hx'
            rw [e2]
            refine ⟨?_, ?_⟩
            · show ((streamsBatch o2 y2).json o').hash ≠ _
              rw [h4, h2]; exact hxx
            · intro id _
              rw [idsOf_stored]; simp
        · right
          obtain ⟨m', hm', rfl⟩ := List.mem_map.mp hm
          rcases wsSentBy_mem hm' with ⟨o2, c, h3, rfl⟩ | ⟨id, s, o2, c, _, h4, _, rfl⟩
          · obtain ⟨z, hz, rfl⟩ := hpost.block h3
            refine ⟨?_, ?_⟩
            · show z.1.hash ≠ _
              rw [h2]; exact (hapart x hx z hz).symm
            · intro id _; rw [idsOf_stored]; simp
          · obtain ⟨z, hz, rfl⟩ := hpost.block h4
            refine ⟨?_, ?_⟩
            · show z.1.hash ≠ _
              rw [h2]; exact (hapart x hx z hz).symm
            · rw [idsOf_stored]; simp
        · right; trivial
      · rw [allParts_iff]
        refine ⟨(hmem _).mpr (.inl ⟨x, hx, by rw [e]; rfl⟩), ?_⟩
        rw [idsOf_stored]; simp
    · obtain ⟨tb, ts, h1, h2, h3⟩ := hpost.carries hnn o' hx
      refine ⟨tb, ts, h1, ⟨?_, once_of_nodup hhash _⟩, fun m hm => (hmem m).mpr (.inr (.inl (h3 m hm)))⟩
      intro m hm
      rcases (hmem m).mp hm with ⟨x', hx', rfl⟩ | hm | rfl
      · right
        obtain ⟨o2, y2, e2, h4, h5⟩ := hform x' hx'
        rw [e2]
        refine ⟨?_, ?_⟩
        · show ((streamsBatch o2 y2).json o').hash ≠ _
          rw [h5, h1.hash]; exact hapart x' hx' x hx
        · intro id hid
          change id ∈ idsOf ((streamsBatch o2 y2).json o') at hid
          rw [idsOf_stored] at hid; cases hid
      · exact h2.only m hm
      · right; trivial
  refine ⟨⟨hw, ?_, ?_⟩, ?_⟩
  · intro ms hms x hx
    simp only [List.mem_singleton] at hms
    subst hms
    obtain ⟨tb, ts, h1, h2, _⟩ := hall x hx
    exact ⟨tb, ts, h1, h2⟩
  · intro ms hms m hm
    simp only [List.mem_singleton] at hms
    subst hms
    rcases (hmem m).mp hm with ⟨x', hx', rfl⟩ | hm | rfl
    · obtain ⟨o2, y2, e2, h4, h5⟩ := hform x' hx'
      rw [e2]
      refine ⟨by simp [WMsg.json], by simp [WMsg.json], ?_⟩
      intro z hz
      simp only [WMsg.json, WMsg.batch.injEq] at hz
      exact ⟨x', by simp [hx'], by rw [← hz]; exact h5⟩
    · obtain ⟨m', hm', rfl⟩ := List.mem_map.mp hm
      rcases wsSentBy_mem hm' with ⟨o2, c, h3, rfl⟩ | ⟨id, s, o2, c, _, _, _, rfl⟩
      · refine ⟨by simp [WMsg.json], by simp [WMsg.json], ?_⟩
        intro y hy
        simp only [WMsg.json, WMsg.batch.injEq] at hy
        obtain ⟨z, hz, rfl⟩ := hpost.block h3
        exact ⟨z, by simp [hz], by rw [← hy]; rfl⟩
      · exact ⟨by simp [WMsg.json], by simp [WMsg.json], by simp [WMsg.json]⟩
    · exact ⟨by simp, by simp, by simp⟩
  · intro x hx
    obtain ⟨tb, ts, h1, h2, h3⟩ := hall x hx
    exact ⟨_, by simp, tb, ts, h1, h2, h3⟩

end

/-! ## C105 -/

/-- **C105**: a server with any number of clients has stored the blocks published by the calls `pre`, of which a consumer knows the first; client `i` of the server is
sent those it does not know and is subscribed to the feed before the messages of the calls `post` are given to it. Then a consumer that receives what the server has sent to the client does
not fault, and its subscribers see each block it did not know exactly once, in chain order and exactly as it was given to the producer. -/
theorem C105_delivered {C : Codec} {env : Env} {o o' : MapOrder} {cfg : Config} {nb : Int} {known fresh new : List WsArgs} {pre post : List WOp}
    (hpre : WsPublishes (known ++ fresh) pre) (hpost : WsPublishes new post)
    (hlinks : ChainOf cfg.lastHash nb cfg.lastWeight ((fresh ++ new).map wsSent))
    (hhash : (Hash.zero :: cfg.lastHash :: (fresh ++ new).map (·.1.hash)).Nodup) (hknown : ((known ++ fresh).map (·.1.hash)).Nodup)
    (hwl : ∀ b ∈ fresh ++ new, ∀ h, cfg.whitelist.get? (heightKey b.1.number) = some h → h = b.1.hash) (hweight : ∀ b ∈ fresh ++ new, 0 ≤ b.1.weight)
    {n : Nat} {stored : Nat → List WMsg} {leaves drains : Nat → Bool} {i : Nat} (hi : i < n) (hl : leaves i = false)
    {f : WsArgs → WMsg} (hst : stored i = fresh.map f) (hf : ∀ b ∈ fresh, StoredForm b (f b)) {s t u : SrvSys}
    (hs : SrvSys.Steps (SrvSys.Step leaves drains) (SrvSys.start n stored (wsSentBy (pre ++ post))) s) (h : SrvSys.Step leaves drains s t)
    (hsub : SubscribedAfter i pre s t) (hu : SrvSys.Steps (SrvSys.Step leaves drains) t u) (hr : u.AtRest leaves drains)
    (hno : ∀ j, j < n → ¬ Abandoned drains u j)
    {num : Int} {w0 : WSys} (h0 : WSys.start cfg num ((u.stream i).got.map (WMsg.json o')) [] = .ok w0) :
    (∀ w, WSys.Steps C env o w0 w → ¬ w.Faulting C env o) ∧
    ∀ w, WSys.Steps C env o w0 w → (∀ w', ¬ WSys.Step C env o w w') →
      (∀ x ∈ w.sys.omp.log, (∃ a, x = .update a []) ∨ ∃ b ∈ fresh ++ new, x = .evictOlder b.1.number) ∧
      (w.sys.omp.log.flatMap addedBy).length = (fresh ++ new).length ∧
      ∀ x ∈ (fresh ++ new).zip (w.sys.omp.log.flatMap addedBy), WsSeen x.1.1 x.1.2 x.2 := by
  obtain ⟨a, b, e1, e2⟩ := srv_received hs h hi hl hsub.before hsub.after hu hr
  have hsent : u.sent = wsSentBy (pre ++ post) := by
    rcases C100_partial ((SrvSys.Steps.step hs h).trans hu) hr with ⟨j, hj, hab⟩ | hd
    · exact absurd hab (hno j hj)
    · exact hd.producer.2
  rw [hsent, hsub.sent, hpre.sent_append hknown, List.drop_left] at e1
  rw [e2, hst] at h0
  have hn : ((fresh ++ new).map (·.1.hash)).Nodup := (List.nodup_cons.mp (List.nodup_cons.mp hhash).2).2
  obtain ⟨c1, c2⟩ := received_carried (o' := o') hpre hpost hn hweight hf e1
  have hfeed : WsFeed cfg nb (fresh ++ new) [(fresh.map f ++ a ++ .ready :: b).map (WMsg.json o')] := ⟨c1, hlinks, hhash, hwl, c2⟩
  exact ⟨fun w hw => ((C88_progress hfeed h0).2 w hw).1, fun w hw hst => C88_delivered hfeed h0 hw hst⟩

/-! ## Example: a stored block and one that is published later, two clients -/

def exEA : BlockArgs := ⟨5, exHash 1, exHash 2, 300, GMap.ofList [(str "a", [1])], GMap.ofList [(str "d", ())], GMap.empty⟩
def exEPost : List WOp := [.add .rev exWA2, .send (exWId 2) (exWS (exWId 2))]
def exEStored (_ : WsArgs) : WMsg := .batch (streamsBatch .plain ⟨5, 300, exHash 1, exHash 2, GMap.ofList [(str "a", [1])], GMap.ofList [(str "d", ())]⟩)

theorem exE_one {P : WsArgs → Prop} {x : WsArgs} (h : P x) : ∀ b ∈ [x], P b := by
  intro b hb
  simp only [List.mem_singleton] at hb
  subst hb; exact h

theorem exE_noIds (id : Hash) : ¬ ∃ p, exEA.batches.get? p = some id := by rintro ⟨p, h⟩; cases h

theorem exE_pre : WsPublishes ([] ++ [(exEA, exWS)]) [.add .plain exEA] := by
  refine ⟨exE_one ⟨ascii_all (by decide +kernel), ascii_all (by decide +kernel), ascii_all (by decide +kernel), ?_, ?_⟩, exE_one (by decide), exE_one (by decide +kernel),
    exE_one ?_, List.Perm.refl _, exE_one (exE_one ?_), ?_, exE_one ?_⟩
  · intro p id h; exact absurd ⟨p, h⟩ (exE_noIds id)
  · intro p id h; exact absurd ⟨p, h⟩ (exE_noIds id)
  · exact agree_of_list (ids := []) (l := [(str "a", [1])]) (fun id h => absurd h (exE_noIds id)) (by decide +kernel) (by simp) (by decide +kernel)
  · intros; rfl
  · intro id s hs; simp at hs
  · intro id h; exact absurd h (exE_noIds id)

theorem exE_post : WsPublishes [(exWA2, exWS)] exEPost := by
  have hsv : (∀ k ∈ (exWS (exWId 2)).updates.keys, Utf8 k) ∧ ∀ k ∈ (exWS (exWId 2)).deletes, Utf8 k :=
    ⟨ascii_all (by decide +kernel), ascii_all (by decide +kernel)⟩
  refine ⟨exE_one ⟨ascii_all (by decide +kernel), ascii_all (by decide +kernel), ascii_all (by decide +kernel), ?_, ?_⟩, exE_one (by decide), exE_one (by decide +kernel),
    exE_one ?_, List.Perm.refl _, exE_one (exE_one ?_), ?_, exE_one ?_⟩
  · intro p id hp; cases (exW_ids2 id).mp ⟨p, hp⟩; exact hsv.1
  · intro p id hp; cases (exW_ids2 id).mp ⟨p, hp⟩; exact hsv.2
  · exact agree_of_list (ids := [exWId 2]) (l := [(str "b", [2]), (str "p/x", [6])])
      (fun id h => by simpa using (exW_ids2 id).mp h) (by decide +kernel) (by decide +kernel) (by decide +kernel)
  · intros; rfl
  · intro id s hs
    refine exE_one ?_
    intro _
    simp only [exEPost, List.mem_cons, WOp.send.injEq, reduceCtorEq, false_or, List.not_mem_nil, or_false] at hs
    obtain ⟨rfl, rfl⟩ := hs; rfl
  · intro id h
    cases (exW_ids2 id).mp h
    exact ⟨[], .rev, [.send (exWId 2) (exWS (exWId 2))], rfl, by simp⟩

theorem exE_exact : ∀ b ∈ [(exEA, exWS)], StoredForm b (exEStored b) := by
  refine exE_one ⟨.plain, _, rfl, rfl, rfl, rfl, rfl, ?_, ?_⟩
  · intro k v
    constructor
    · intro h; exact .inl h
    · rintro (h | ⟨p, id, h, _⟩)
      · exact h
      · exact absurd ⟨p, h⟩ (exE_noIds id)
  · intro k
    constructor
    · intro h; exact .inl ((GMap.contains_iff_mem_keys _).mp h)
    · rintro (h | ⟨p, id, h, _⟩)
      · exact (GMap.contains_iff_mem_keys _).mpr h
      · exact absurd ⟨p, h⟩ (exE_noIds id)

def exELeaves (i : Nat) : Bool := i == 1
def exEDrains (_ : Nat) : Bool := true

theorem srv_rests {leaves drains : Nat → Bool} (s0 : SrvSys) : ∃ s, SrvSys.Steps (SrvSys.Step leaves drains) s0 s ∧ s.AtRest leaves drains := by
  apply Classical.byContradiction
  intro hno
  have hno : ∀ w, SrvSys.Steps (SrvSys.Step leaves drains) s0 w → ∃ w', SrvSys.Step leaves drains w w' := by
    intro w hw
    apply Classical.byContradiction
    intro h
    exact hno ⟨w, hw, fun w' hw' => h ⟨w', hw'⟩⟩
  let f : Nat → { w : SrvSys // SrvSys.Steps (SrvSys.Step leaves drains) s0 w } := fun n => Nat.rec ⟨s0, .refl⟩
    (fun _ w => ⟨Classical.choose (hno w.1 w.2), .step w.2 (Classical.choose_spec (hno w.1 w.2))⟩) n
  exact srv_no_endless (fun n => (f n).1) (fun n => Classical.choose_spec (hno (f n).1 (f n).2))

theorem exE_subscribed {leaves drains : Nat → Bool} (x m : WMsg) (rest : List WMsg) : ∃ s t, SrvSys.Steps (SrvSys.Step leaves drains) (SrvSys.start 2 (fun _ => [x]) (m :: rest)) s ∧
    SrvSys.Step leaves drains s t ∧ (s.stream 0).sub = false ∧ (t.stream 0).sub = true ∧ s.sent = [m] := by
  obtain ⟨s1, a1, n1, p1, f1, e1⟩ : ∃ s1, SrvSys.Step leaves drains (SrvSys.start 2 (fun _ => [x]) (m :: rest)) s1 ∧ s1.n = 2 ∧ s1.prod = .holding m ∧
      s1.stream = (SrvSys.start 2 (fun _ => [x]) (m :: rest)).stream ∧ s1.sent = [] := ⟨_, .rlock rfl rfl (fun j _ => rfl), rfl, rfl, rfl, rfl⟩
  obtain ⟨s2, a2, n2, p2, f2, e2⟩ : ∃ s2, SrvSys.Step leaves drains s1 s2 ∧ s2.n = 2 ∧ s2.prod = .sending m ∧
      s2.stream = (SrvSys.start 2 (fun _ => [x]) (m :: rest)).stream ∧ s2.sent = [m] := ⟨_, .begin p1, n1, rfl, by rw [f1]; rfl, by rw [e1]; rfl⟩
  obtain ⟨s3, a3, n3, f3, e3⟩ : ∃ s3, SrvSys.Step leaves drains s2 s3 ∧ s3.n = 2 ∧
      s3.stream = (SrvSys.start 2 (fun _ => [x]) (m :: rest)).stream ∧ s3.sent = [m] := ⟨_, .finish p2 (fun j _ => by rw [f2]; rfl), n2, f2, e2⟩
  obtain ⟨s4, a4, n4, f4, e4⟩ : ∃ s4, SrvSys.Step leaves drains s3 s4 ∧ s4.n = 2 ∧
      s4.stream 0 = ⟨.stored [], .idle, [x], true, false, false, false, [], none⟩ ∧ s4.sent = [m] :=
    ⟨_, .push (i := 0) (m := x) (rest := []) (by omega) (by rw [f3]; rfl) (by rw [f3]; exact .inl (Nat.zero_le _)) (by rw [f3]; exact Nat.zero_lt_succ _) (by rw [f3]; rfl),
      n3, by rw [SrvSys.upd_same, f3]; rfl, e3⟩
  obtain ⟨s5, a5, n5, f5, e5⟩ : ∃ s5, SrvSys.Step leaves drains s4 s5 ∧ s5.n = 2 ∧
      s5.stream 0 = ⟨.checked, .idle, [x], true, false, false, false, [], none⟩ ∧ s5.sent = [m] :=
    ⟨_, .check (i := 0) (by omega) (by rw [f4]) (by rw [f4]), n4, by rw [SrvSys.upd_same, f4], e4⟩
  exact ⟨s5, _, .step (.step (.step (.step (.step .refl a1) a2) a3) a4) a5, .subscribe (i := 0) (by omega) (by rw [f5]), by rw [f5], by rw [SrvSys.upd_same], e5⟩

/-- C105: the hypotheses are met by a server with two clients, of which one leaves, and the subscribers see the stored block and the published one. -/
example : ∃ u w0 w, SrvSys.Steps (SrvSys.Step exELeaves exEDrains)
      (SrvSys.start 2 (fun _ => [(exEA, exWS)].map exEStored) (wsSentBy ([.add .plain exEA] ++ exEPost))) u ∧
    WSys.start exSysCfg 4 ((u.stream 0).got.map (WMsg.json .rev)) [] = .ok w0 ∧ WSys.Steps Avro.codec exEnv .plain w0 w ∧
    (w.sys.omp.log.flatMap addedBy).length = 2 ∧
    ∀ x ∈ ([(exEA, exWS)] ++ [(exWA2, exWS)]).zip (w.sys.omp.log.flatMap addedBy), WsSeen x.1.1 x.1.2 x.2 := by
  have hs : ∃ s t, SrvSys.Steps (SrvSys.Step exELeaves exEDrains)
      (SrvSys.start 2 (fun _ => [(exEA, exWS)].map exEStored) (wsSentBy ([.add .plain exEA] ++ exEPost))) s ∧ SrvSys.Step exELeaves exEDrains s t ∧
      SubscribedAfter 0 [.add .plain exEA] s t := by
    obtain ⟨s, t, h1, h2, h3, h4, h5⟩ := exE_subscribed (leaves := exELeaves) (drains := exEDrains) (exEStored (exEA, exWS))
      _ (wsSentBy ([.add .plain exEA] ++ exEPost)).tail
    exact ⟨s, t, h1, h2, h3, h4, h5⟩
  obtain ⟨s, t, h1, h2, h3⟩ := hs
  obtain ⟨u, hu, hr⟩ := srv_rests (leaves := exELeaves) (drains := exEDrains) t
  obtain ⟨w0, h0⟩ : ∃ w0, WSys.start exSysCfg 4 ((u.stream 0).got.map (WMsg.json .rev)) [] = .ok w0 := ⟨_, rfl⟩
  obtain ⟨w, hw, hst⟩ := wsys_rests (C := Avro.codec) (env := exEnv) (o := .plain) w0
  have := (C105_delivered (o := .plain) (C := Avro.codec) (env := exEnv) (cfg := exSysCfg) (nb := 4) exE_pre exE_post
    ⟨rfl, rfl, show (200 : Int) < 300 by decide, rfl, rfl, show (300 : Int) < 310 by decide, trivial⟩
    (by show [Hash.zero, exHash 2, exHash 1, exHash 3].Nodup; decide) (by show [exHash 1].Nodup; decide)
    (by intro s _ x hx; simp [exSysCfg, exCfg] at hx) (by decide) (i := 0) Nat.two_pos rfl rfl exE_exact h1 h2 h3 hu hr
    (fun j _ h => by have := h.2.1; cases this) h0).2 w hw hst
  exact ⟨u, w0, w, (SrvSys.Steps.step h1 h2).trans hu, h0, hw, this.2⟩

end Verif
