import Verif.Model.WebsocketSystem
import Verif.Props.System
import Verif.Props.Websocket
import Verif.Proofs.Handed
/-!
# C88: from a websocket producer to the subscribers of a websocket consumer
-/
namespace Verif
open Spec

variable {C : Codec} {env : Env} {o : MapOrder}

/-! ## Specification -/

/-- A block with its sub-batches, given to a producer. -/
abbrev WsArgs := BlockArgs × (Hash → SubArgs)

/-- The block as a link of a chain (no schema and no Kafka messages). -/
def wsSent (b : WsArgs) : SentBlock := ⟨[], b.1, b.2, []⟩

/-- The forms in which a block comes over a connection: as it was given to the producer, or as a block from storage that has the same
contents. -/
inductive Spec.WsForm (a : BlockArgs) (subs : Hash → SubArgs) : TBatch → (Hash → TSub) → Prop
  | live (o o' : MapOrder) : Textual a subs → InInt64 a.number → (a.batches.entries.map Prod.snd).Nodup →
      (∀ k v w, WsValue a subs k v → WsValue a subs k w → v = w) →
      WsForm a subs (wsMessages o o' a subs).1 (wsMessages o o' a subs).2
  | stored (o o' : MapOrder) {b : WsBlock} (ts : Hash → TSub) : WsExact a subs b → InInt64 a.number → (∀ k ∈ b.values.keys, Utf8 k) →
      (∀ k ∈ b.deletes.keys, Utf8 k) → WsForm a subs ((streamsBatch o b).json o') ts

/-- What comes over the connections are messages of these blocks. -/
structure Spec.WsCarried (bs : List WsArgs) (conns : List (List WMsg)) : Prop where
  weight : ∀ b ∈ bs, 0 ≤ b.1.weight
  /-- on each connection each block comes in some form, its batch message at most once; parts may be missing -/
  forms : ∀ ms ∈ conns, ∀ b ∈ bs, ∃ tb ts, WsForm b.1 b.2 tb ts ∧ OneBatch tb ts ms
  /-- there are no reorg items, no malformed ones, and no batches of other blocks -/
  only : ∀ ms ∈ conns, ∀ m ∈ ms, (∀ n h, m ≠ .reorg n h) ∧ m ≠ .hollow ∧ ∀ x, m = .batch x → ∃ b ∈ bs, x.hash = b.1.hash

/-- Each block comes completely over some connection. -/
def Spec.WsComplete (bs : List WsArgs) (conns : List (List WMsg)) : Prop :=
  ∀ b ∈ bs, ∃ ms ∈ conns, ∃ tb ts, WsForm b.1 b.2 tb ts ∧ OneBatch tb ts ms ∧ AllParts tb ts ms

/-- A chain received over one or more connections. -/
structure Spec.WsFeed (cfg : Config) (n : Int) (bs : List WsArgs) (conns : List (List WMsg)) : Prop extends WsCarried bs conns where
  /-- the blocks are a chain on the last processed block, which has number `n` -/
  links : ChainOf cfg.lastHash n cfg.lastWeight (bs.map wsSent)
  hashes : (Hash.zero :: cfg.lastHash :: bs.map (·.1.hash)).Nodup
  whitelist : ∀ b ∈ bs, ∀ h, cfg.whitelist.get? (heightKey b.1.number) = some h → h = b.1.hash
  all : WsComplete bs conns

/-- A subscriber sees the block given to the producer. -/
structure Spec.WsSeen (a : BlockArgs) (subs : Hash → SubArgs) (pb : PB) : Prop where
  number : pb.number = a.number
  weight : (pb.weight : Int) = a.weight
  hash : pb.hash = a.hash
  parent : pb.parentHash = a.parentHash
  values : ∀ k v, pb.values.get? k = some v ↔ WsValue a subs k v
  deletes : ∀ k, pb.deletes.contains k = true ↔ WsDelete a subs k

/-! ## Forms -/

section
variable {a : BlockArgs} {subs : Hash → SubArgs} {tb : TBatch} {ts : Hash → TSub}

theorem Spec.WsForm.hash (h : WsForm a subs tb ts) : tb.hash = a.hash := by
  cases h with
  | live => rfl
  | stored o o' ts hx => exact hx.hash

theorem Spec.WsForm.parted (h : WsForm a subs tb ts) : WellParted tb ts ∧ PartsAgree tb ts ∧ ∀ pb, Assembled tb ts pb → WsExact a subs pb := by
  cases h with
  | live o o' ht hn hd hag =>
    obtain ⟨h1, h2, _, h3⟩ := wsMessages_form ht hn hd hag o o'
    exact ⟨h1, h2, h3⟩
  | @stored o o' b ts hx hn hv hd =>
    have e2 : ((streamsBatch o b).json o').values = b.values.reorder o' 0 := jsonMap_utf8 o' 0 b.values hv
    have hp := o.perm 0 b.deletes.keys
    have e3 : ((streamsBatch o b).json o').deletes = o.ord 0 b.deletes.keys := map_jsonString (fun k hk => hd k (hp.mem_iff.mp hk))
    have e1 : idsOf ((streamsBatch o b).json o') = [] := by
      have e : ((streamsBatch o b).json o').batches.entries = [] := by
        show (jsonMap o' 1 GMap.empty).entries = []
        rw [jsonMap_utf8 o' 1 _ (by simp [GMap.keys, GMap.empty])]
        have := (o'.perm 1 (GMap.empty : GMap GoStr Hash).entries).length_eq
        exact List.length_eq_zero_iff.mp this
      unfold idsOf; rw [e]; rfl
    have hv' : ∀ k v, PartValue ((streamsBatch o b).json o') ts k v ↔ WsValue a subs k v := by
      intro k v
      rw [← hx.values k v]
      unfold PartValue
      rw [e1, e2, GMap.get?_reorder]
      simp
    have hd' : ∀ k, PartDelete ((streamsBatch o b).json o') ts k ↔ WsDelete a subs k := by
      intro k
      rw [← hx.deletes k, GMap.contains_iff_mem_keys]
      unfold PartDelete
      rw [e1, e3, hp.mem_iff]
      simp
    refine ⟨⟨by rw [e1]; simp, by rw [e1]; simp, by rw [e1]; simp⟩, ?_, ?_⟩
    · intro k v w h1 h2
      rw [hv', ← hx.values] at h1 h2
      rw [h1] at h2
      exact Option.some.inj h2
    · intro pb r
      refine ⟨?_, r.weight.trans hx.weight, r.hash.trans hx.hash, r.parent.trans hx.parent, fun k v => (r.values k v).trans (hv' k v),
        fun k => (r.deletes k).trans (hd' k)⟩
      rw [r.number, ← hx.number]
      exact ofUint64_wireUint64 (hx.number ▸ hn)

end

/-! ## One item -/

theorem wstep_out {c d : WConn} {mo : MapOrder} {m : WMsg} (h : c.step mo m = .ok d) : ∃ l, d.out = c.out ++ l ∧
    ((∀ n x, m ≠ .reorg n x) → ∀ n x, WOut.reorg n x ∉ l) := by
  cases m with
  | hollow => simp [WConn.step] at h
  | ready => simp only [WConn.step, Except.ok.injEq] at h; subst h; exact ⟨[], by simp, by simp⟩
  | unknown => simp only [WConn.step, Except.ok.injEq] at h; subst h; exact ⟨[], by simp, by simp⟩
  | reorg n x => simp only [WConn.step, Except.ok.injEq] at h; subst h; exact ⟨_, rfl, fun hn => absurd rfl (hn n x)⟩
  | batch b =>
    simp only [WConn.step, Except.ok.injEq] at h; subst h
    rw [WConn.onBatch_eq c mo b _ rfl]
    simp only []
    split
    · exact ⟨_, rfl, by simp⟩
    · exact ⟨[], by simp, by simp⟩
  | sub s =>
    simp only [WConn.step, Except.ok.injEq] at h; subst h
    unfold WConn.onSub
    cases c.batches.get? s.hash with
    | none => exact ⟨[], by simp, by simp⟩
    | some pb =>
      simp only []
      cases c.pending.get? s.hash with
      | none => exact ⟨_, rfl, by simp⟩
      | some q =>
        simp only []
        split
        · exact ⟨_, rfl, by simp⟩
        · exact ⟨[], by simp, by simp⟩

theorem wstep_ok {c : WConn} {mo : MapOrder} {m : WMsg} (h : m ≠ .hollow) : ∃ d, c.step mo m = .ok d := by
  cases m with
  | hollow => exact absurd rfl h
  | _ => exact ⟨_, rfl⟩

/-- The hashes of the blocks held and handed on have the property `P`. -/
structure WFrom (P : Hash → Prop) (c : WConn) : Prop where
  held : ∀ h pb, c.batches.get? h = some pb → pb.hash = h ∧ P h
  out : ∀ pb, WOut.block pb ∈ c.out → P pb.hash

theorem WFrom.step {P : Hash → Prop} {c d : WConn} {mo : MapOrder} {m : WMsg} (h : WFrom P c) (hm : ∀ x, m = .batch x → P x.hash)
    (hs : c.step mo m = .ok d) : WFrom P d := by
  have fin : ∀ (c' : WConn) (pb : WsBlock), (∀ k qb, c'.batches.get? k = some qb → qb.hash = k ∧ P k) → c'.out = c.out → P pb.hash →
      WFrom P (c'.finish pb) := by
    intro c' pb h1 h2 h3
    refine ⟨h1, ?_⟩
    intro qb hq
    simp only [WConn.finish, h2, List.mem_append, List.mem_singleton, WOut.block.injEq] at hq
    rcases hq with hq | rfl
    · exact h.out qb hq
    · exact h3
  cases m with
  | hollow => simp [WConn.step] at hs
  | ready => simp only [WConn.step, Except.ok.injEq] at hs; subst hs; exact ⟨h.held, h.out⟩
  | unknown => simp only [WConn.step, Except.ok.injEq] at hs; subst hs; exact h
  | reorg n x =>
    simp only [WConn.step, Except.ok.injEq] at hs; subst hs
    exact ⟨h.held, fun pb hpb => h.out pb (by simpa using hpb)⟩
  | batch b =>
    simp only [WConn.step, Except.ok.injEq] at hs; subst hs
    have hb := hm b rfl
    rw [WConn.onBatch_eq c mo b _ rfl]
    have hh := (gather_fields b.toPending c.subs GMap.empty ((mo.ord 2 b.batches.entries).map Prod.snd)).2.2.1
    generalize gather b.toPending c.subs GMap.empty ((mo.ord 2 b.batches.entries).map Prod.snd) = g at hh
    have hx : g.1.hash = b.hash := hh
    simp only []
    split
    · exact fin _ _ h.held rfl (hx ▸ hb)
    · refine ⟨?_, h.out⟩
      intro k qb hk
      simp only [GMap.get?_insert] at hk
      split at hk
      · rename_i e; cases hk; rw [← e]; exact ⟨hx, hb⟩
      · exact h.held k qb hk
  | sub s =>
    simp only [WConn.step, Except.ok.injEq] at hs; subst hs
    unfold WConn.onSub
    cases hb : c.batches.get? s.hash with
    | none => exact ⟨h.held, h.out⟩
    | some pb =>
      obtain ⟨e, hP⟩ := h.held _ _ hb
      have hx : (pb.merge s).hash = s.hash := e
      have hke : ∀ k qb, (c.batches.erase s.hash).get? k = some qb → qb.hash = k ∧ P k := by
        intro k qb hk
        rw [GMap.get?_erase] at hk
        split at hk
        · cases hk
        · exact h.held _ _ hk
      simp only []
      split
      · exact fin _ _ hke rfl (hx ▸ hP)
      · split
        · exact fin _ _ hke rfl (hx ▸ hP)
        · refine ⟨?_, h.out⟩
          intro k qb hk
          simp only [GMap.get?_insert] at hk
          split at hk
          · rename_i e; cases hk; rw [← e]; exact ⟨hx, hP⟩
          · exact h.held k qb hk

theorem wsinv_next {b : TBatch} {ts : Hash → TSub} {seen ms : List WMsg} {c d : WConn} {l : List WOut} {m : WMsg} {mo : MapOrder}
    (hp : WellParted b ts) (ha : PartsAgree b ts) (h : WsInv b ts seen c l) (hms : OneBatch b ts (seen ++ m :: ms)) (hs : c.step mo m = .ok d) :
    ∀ l', d.out = c.out ++ l' → WsInv b ts (seen ++ [m]) d (l ++ l') := by
  have : ∃ c' l', c.step mo m = .ok c' ∧ c'.out = c.out ++ l' ∧ WsInv b ts (seen ++ [m]) c' (l ++ l') := by
    rcases hms.only m (by simp) with hpart | he
    · cases hpart with
      | batch => exact h.batch hp ha (hms.once seen ms rfl) mo
      | sub hid => exact h.sub hp ha hid mo
    · exact h.elsewhere hp he mo
  obtain ⟨c', l', e1, e2, e3⟩ := this
  rw [hs] at e1
  cases e1
  intro l'' e
  rw [e2] at e
  rw [← List.append_cancel_left e]
  exact e3

/-! ## The invariant -/

section
variable {cfg : Config} {n : Int} {bs : List WsArgs} {conns : List (List WMsg)}

/-- What is known of a reachable state. -/
structure WSInv (C : Codec) (env : Env) (o : MapOrder) (cfg : Config) (bs : List WsArgs) (conns : List (List WMsg)) (w : WSys) : Prop where
  pos : ∃ hist seen l0 l, conns = hist ++ (seen ++ w.todo) :: w.later ∧ w.conn.out = l0 ++ l ∧
    (∀ b ∈ bs, ∀ tb ts, WsForm b.1 b.2 tb ts → OneBatch tb ts (seen ++ w.todo) → WsInv tb ts seen w.conn l) ∧
    ∀ ms ∈ hist, ∀ b ∈ bs, ∀ tb ts, WsForm b.1 b.2 tb ts → OneBatch tb ts ms → AllParts tb ts ms → ∃ pb, WOut.block pb ∈ l0 ∧ pb.hash = b.1.hash
  exact : ∀ pb, WOut.block pb ∈ w.conn.out → ∃ b ∈ bs, WsExact b.1 b.2 pb
  calm : ∀ n h, WOut.reorg n h ∉ w.conn.out
  source : WFrom (fun h => ∃ b ∈ bs, h = b.1.hash) w.conn
  run : ∃ s0, Sys.start cfg ((handed w.conn.out).map Call.block) = .ok s0 ∧ Sys.Steps C env o s0 w.sys

theorem mem_blocksWith {h : Hash} {l : List WOut} {pb : WsBlock} : pb ∈ blocksWith h l ↔ WOut.block pb ∈ l ∧ pb.hash = h := by
  unfold blocksWith
  rw [List.mem_filterMap]
  constructor
  · rintro ⟨x, hx, e⟩
    cases x with
    | reorg => simp at e
    | block b =>
      simp only [] at e
      split at e
      · cases e; rename_i e; exact ⟨hx, e⟩
      · cases e
  · rintro ⟨h1, h2⟩
    exact ⟨_, h1, by simp [h2]⟩

theorem handed_append (a b : List WOut) : handed (a ++ b) = handed a ++ handed b := List.filterMap_append

theorem wsinv_steps (h : WsCarried bs conns) {num : Int} {first : List WMsg} {later : List (List WMsg)} (hc : conns = first :: later) {w0 w : WSys}
    (h0 : WSys.start cfg num first later = .ok w0) (hs : WSys.Steps C env o w0 w) : WSInv C env o cfg bs conns w := by
  induction hs with
  | refl =>
    unfold WSys.start at h0
    obtain ⟨s, h1, h0⟩ := bind_ok.mp h0
    cases h0
    refine ⟨⟨[], [], [], [], by simp [hc], rfl, fun b _ tb ts _ _ => WsInv.init tb ts (WConn.new num cfg.lastHash), by simp⟩, ?_, ?_, ?_, ?_⟩
    · simp [WConn.new]
    · simp [WConn.new]
    · exact ⟨by simp [WConn.new], by simp [WConn.new]⟩
    · exact ⟨s, h1, .refl⟩
  | step hss hst ih =>
    rename_i w1 w2
    obtain ⟨hist, seen, l0, l, e1, e2, hinv, hdone⟩ := ih.pos
    have hmem : seen ++ w1.todo ∈ conns := by rw [e1]; simp
    cases hst with
    | inner hi =>
      obtain ⟨s0, r1, r2⟩ := ih.run
      exact ⟨⟨hist, seen, l0, l, e1, e2, hinv, hdone⟩, ih.exact, ih.calm, ih.source, ⟨s0, r1, .step r2 hi⟩⟩
    | reorg ht hout hm =>
      rename_i k x ms mo d omp _ _
      have := (h.only _ hmem (.reorg k x) (by simp [hm])).1
      exact absurd rfl (this k x)
    | reconnect ht hout hm hl =>
      rename_i ms later'
      have hw : WFrom (fun h => ∃ b ∈ bs, h = b.1.hash) w1.conn.reconnect := ⟨by simp [WConn.reconnect], ih.source.out⟩
      refine ⟨⟨hist ++ [seen], [], w1.conn.out, [], ?_, by simp [WConn.reconnect], ?_, ?_⟩, ih.exact, ih.calm, hw, ih.run⟩
      · rw [e1, hm, hl]; simp
      · exact fun b _ tb ts _ _ => WsInv.init tb ts w1.conn
      · intro ms' hms' b hb tb ts hf ho ha
        rcases List.mem_append.mp hms' with hms' | hms'
        · obtain ⟨pb, h1, h2⟩ := hdone ms' hms' b hb tb ts hf ho ha
          exact ⟨pb, by rw [e2]; simp [h1], h2⟩
        · simp only [List.mem_singleton] at hms'
          subst hms'
          rw [hm, List.append_nil] at hinv
          obtain ⟨_, pb, h1, h2⟩ := (hinv b hb tb ts hf ho).complete ha
          have : pb ∈ blocksWith tb.hash l := by rw [h1]; simp
          obtain ⟨h3, h4⟩ := mem_blocksWith.mp this
          exact ⟨pb, by rw [e2]; simp [h3], h4.trans hf.hash⟩
    | read ht hout hm hr hstep =>
      rename_i m ms mo d
      obtain ⟨l', e3, hcalm⟩ := wstep_out hstep
      have hin : m ∈ seen ++ w1.todo := by rw [hm]; simp
      have hone := h.only _ hmem m hin
      have hsrc := ih.source.step (fun x e => by obtain ⟨b, hb, e'⟩ := hone.2.2 x e; exact ⟨b, hb, e'⟩) hstep
      have hinv' : ∀ b ∈ bs, ∀ tb ts, WsForm b.1 b.2 tb ts → OneBatch tb ts (seen ++ [m] ++ ms) → WsInv tb ts (seen ++ [m]) d (l ++ l') := by
        intro b hb tb ts hf hob
        have hob' : OneBatch tb ts (seen ++ m :: ms) := by simpa using hob
        have := hinv b hb tb ts hf (by rw [hm]; exact hob')
        exact wsinv_next hf.parted.1 hf.parted.2.1 this hob' hstep l' e3
      refine ⟨⟨hist, seen ++ [m], l0, l ++ l', ?_, ?_, hinv', hdone⟩, ?_, ?_, hsrc, ?_⟩
      · rw [e1, hm]; simp
      · show d.out = _
        rw [e3, e2]; simp
      · intro pb hpb
        have hpb : WOut.block pb ∈ d.out := hpb
        rw [e3] at hpb
        rcases List.mem_append.mp hpb with hpb | hpb
        · exact ih.exact pb hpb
        · obtain ⟨b, hb, hbh⟩ := hsrc.out pb (by rw [e3]; simp [hpb])
          obtain ⟨tb, ts, hf, hob⟩ := h.forms _ hmem b hb
          have hv := hinv' b hb tb ts hf (by rw [hm] at hob; simpa using hob)
          have hx : pb ∈ blocksWith tb.hash (l ++ l') := mem_blocksWith.mpr ⟨by simp [hpb], hbh.trans hf.hash.symm⟩
          refine ⟨b, hb, ?_⟩
          by_cases hall : AllParts tb ts (seen ++ [m])
          · obtain ⟨_, qb, h1, h2⟩ := hv.complete hall
            rw [h1] at hx
            simp only [List.mem_singleton] at hx
            subst hx
            exact hf.parted.2.2 _ h2
          · have : blocksWith tb.hash (l ++ l') = [] := by
              by_cases hbm : WMsg.batch tb ∈ seen ++ [m]
              · exact (hv.waiting hbm hall).1
              · exact (hv.before hbm).2.1
            rw [this] at hx
            simp at hx
      · intro n h hh
        have hh : WOut.reorg n h ∈ d.out := hh
        rw [e3] at hh
        rcases List.mem_append.mp hh with hh | hh
        · exact ih.calm n h hh
        · exact hcalm hr n h hh
      · obtain ⟨s0, r1, r2⟩ := ih.run
        show ∃ s0, Sys.start cfg ((handed d.out).map Call.block) = .ok s0 ∧ Sys.Steps C env o s0
          { w1.sys with todo := (handed (d.out.drop w1.conn.out.length)).map Call.block }
        rw [e3, handed_append, List.map_append]
        refine ⟨_, start_more r1, ?_⟩
        have := r2.more ((handed l').map Call.block)
        simpa [Sys.more, ht] using this

/-! ## The blocks handed on -/

/-- The block without its channel. -/
def PB.bald (pb : PB) : PB := { pb with waitCh := none }

theorem calls_blocks (C : Codec) (env : Env) (l : List PB) (mp : MP) : ∃ mp' em, mp.calls C env (l.map Call.block) = .ok mp' ∧
    mp'.emitted = mp.emitted ++ em ∧ em.map PB.bald = l.map PB.bald ∧ notesSent mp'.log = notesSent mp.log := by
  induction l generalizing mp with
  | nil => exact ⟨mp, [], rfl, by simp, rfl, rfl⟩
  | cons pb l ih =>
    obtain ⟨pb', next, w, h1, h2⟩ := complete_eq mp pb
    obtain ⟨mp', em, r1, r2, r3, r4⟩ := ih (mp.processCompleteBatch pb)
    refine ⟨mp', pb' :: em, ?_, ?_, ?_, ?_⟩
    · unfold MP.calls at r1 ⊢
      rw [List.map_cons, List.foldlM_cons]
      exact r1
    · rw [r2, h1]; simp [MP.emitted]
    · rw [List.map_cons, List.map_cons, r3, ← h2]; rfl
    · rw [r4, h1]; simp [notesSent]

/-- A run over complete blocks. -/
theorem blocks_inside {bl : List PB} {s0 s : Sys} (hst : Sys.start cfg (bl.map Call.block) = .ok s0) (hs : Sys.Steps C env o s0 s) :
    ∃ omp0 ds done rest, newOMP cfg = .ok omp0 ∧ bl = done ++ rest ∧ s.todo = rest.map Call.block ∧ s.ops = ds.map OOp.block ∧
      omp0.run o (ds.map OOp.block) = .ok s.omp ∧ s.mp.emitted = ds ++ (s.ch ++ blocksSent s.out) ∧
      s.mp.emitted.map PB.bald = done.map PB.bald := by
  have hp := (Piped.start hst).steps hs
  obtain ⟨mp0, hn, hr⟩ := hp.consists.mp
  obtain ⟨omp0, ho, hor⟩ := hp.consists.omp
  obtain ⟨done, rest, h1, h2, h3⟩ : ∃ done rest, bl = done ++ rest ∧ done.map Call.block = s.calls ∧ rest.map Call.block = s.todo :=
    List.map_eq_append_iff.mp hp.consists.calls
  have hl : mp0.log = [] := by
    unfold newMP at hn
    split at hn
    · simp at hn
    · simp only [Except.ok.injEq] at hn; subst hn; rfl
  obtain ⟨mp', em, r1, r2, r3, r4⟩ := calls_blocks C env done mp0
  rw [h2, hr] at r1
  cases r1
  have hops : s.ops = (blocksOf s.ops).map OOp.block := by
    refine ops_blocks ?_
    have := hp.notes
    rw [r4, hl] at this
    exact (List.append_eq_nil_iff.mp this.symm).1
  refine ⟨omp0, blocksOf s.ops, done, rest, ho, h1, h3.symm, hops, ?_, hp.blocks, ?_⟩
  · rw [← hops]; exact hor
  · rw [r2, List.map_append, r3]; simp [MP.emitted, hl]

theorem seen_of_exact {b : WsArgs} {x : WsBlock} (h : WsExact b.1 b.2 x) (hw : 0 ≤ b.1.weight) {pb : PB} (e : pb.bald = x.pb.bald) :
    WsSeen b.1 b.2 pb := by
  have e' : ∀ (f : PB → Prop), (∀ y : PB, f y.bald → f y) → f x.pb.bald → f pb := fun f hf h => hf pb (e ▸ h)
  refine e' (WsSeen b.1 b.2) (fun y hy => ⟨hy.number, hy.weight, hy.hash, hy.parent, hy.values, hy.deletes⟩) ?_
  refine ⟨h.number, ?_, h.hash, h.parent, h.values, h.deletes⟩
  show ((x.weight.toNat : Nat) : Int) = b.1.weight
  rw [h.weight]; omega

theorem mem_handed {l : List WOut} {y : PB} : y ∈ handed l ↔ ∃ x, WOut.block x ∈ l ∧ y = x.pb := by
  unfold handed
  rw [List.mem_filterMap]
  constructor
  · rintro ⟨x, hx, e⟩
    cases x with
    | reorg => simp at e
    | block b => exact ⟨b, hx, by simpa using e.symm⟩
  · rintro ⟨x, hx, rfl⟩
    exact ⟨_, hx, rfl⟩

/-- What has been emitted are blocks of the chain. -/
theorem WSInv.emitted (h : WsCarried bs conns) {w : WSys} (hv : WSInv C env o cfg bs conns w) {pb : PB} (hpb : pb ∈ w.sys.mp.emitted) :
    ∃ b ∈ bs, WsSeen b.1 b.2 pb := by
  obtain ⟨s0, r1, r2⟩ := hv.run
  obtain ⟨omp0, ds, done, rest, i1, i2, i3, i4, i5, i6, i7⟩ := blocks_inside r1 r2
  have : pb.bald ∈ done.map PB.bald := by rw [← i7]; exact List.mem_map.mpr ⟨pb, hpb, rfl⟩
  obtain ⟨y, hy, e⟩ := List.mem_map.mp this
  obtain ⟨x, hx, rfl⟩ := mem_handed.mp (show y ∈ handed w.conn.out by rw [i2]; simp [hy])
  obtain ⟨b, hb, he⟩ := hv.exact x hx
  exact ⟨b, hb, seen_of_exact he (h.weight b hb) e.symm⟩

/-- The ordering layer works through blocks of the chain. -/
theorem Spec.WsFeed.ordered (h : WsFeed cfg n bs conns) {omp0 : OMP} (hn : newOMP cfg = .ok omp0) {ds : List PB}
    (hds : ∀ pb ∈ ds, ∃ b ∈ bs, WsSeen b.1 b.2 pb) :
    ∃ s em rest, omp0.run o (ds.map OOp.block) = .ok s ∧ (bs.map wsSent).map bare = em ++ rest ∧ addedHashes s.log = Spec.hashes em ∧
      (∀ x ∈ s.log, (∃ a, x = .update a []) ∨ ∃ sb ∈ bs.map wsSent, x = .evictOlder sb.args.number) ∧
      ∀ b rest', rest = b :: rest' → b.hash ∉ Spec.hashes ds ∧ ∀ n, OOut.evictOlder n ∈ s.log → n ≤ b.number := by
  refine chain_ordered h.links ?_ ?_ ?_ hn ?_
  · have : (bs.map wsSent).map (·.args.hash) = bs.map (·.1.hash) := by simp [wsSent, Function.comp_def]
    rw [this]; exact h.hashes
  · intro s hs x hx
    obtain ⟨b, hb, rfl⟩ := List.mem_map.mp hs
    exact h.whitelist b hb x hx
  · intro s hs
    obtain ⟨b, hb, rfl⟩ := List.mem_map.mp hs
    exact h.weight b hb
  · intro pb hpb
    obtain ⟨b, hb, he⟩ := hds pb hpb
    exact ⟨wsSent b, List.mem_map.mpr ⟨b, hb, rfl⟩, he.number, he.weight, he.hash, he.parent⟩

/-- When everything has been read and handled, a block that came completely was handed on. -/
theorem WSInv.one {w : WSys} (hv : WSInv C env o cfg bs conns w) (ht : w.todo = []) (hl : w.later = []) (hd : w.sys.todo = []) {b : WsArgs} (hb : b ∈ bs)
    (hall : ∃ ms ∈ conns, ∃ tb ts, WsForm b.1 b.2 tb ts ∧ OneBatch tb ts ms ∧ AllParts tb ts ms) : b.1.hash ∈ Spec.hashes w.sys.mp.emitted := by
  obtain ⟨s0, r1, r2⟩ := hv.run
  obtain ⟨omp0, ds, done, rest, i1, i2, i3, i4, i5, i6, i7⟩ := blocks_inside r1 r2
  rw [hd] at i3
  have hrest : rest = [] := List.map_eq_nil_iff.mp i3.symm
  subst hrest
  rw [List.append_nil] at i2
  obtain ⟨hist, seen, l0, l, e1, e2, hinv, hdone⟩ := hv.pos
  rw [ht, hl, List.append_nil] at e1
  rw [ht, List.append_nil] at hinv
  obtain ⟨ms, hms, tb, ts, hf, hob, hpa⟩ := hall
  have : ∃ x, WOut.block x ∈ w.conn.out ∧ x.hash = b.1.hash := by
    rw [e1] at hms
    rcases List.mem_append.mp hms with hms | hms
    · obtain ⟨x, h1, h2⟩ := hdone ms hms b hb tb ts hf hob hpa
      exact ⟨x, by rw [e2]; simp [h1], h2⟩
    · simp only [List.mem_singleton] at hms
      subst hms
      obtain ⟨_, x, h1, h2⟩ := (hinv b hb tb ts hf hob).complete hpa
      obtain ⟨h3, h4⟩ := mem_blocksWith.mp (show x ∈ blocksWith tb.hash l by rw [h1]; simp)
      exact ⟨x, by rw [e2]; simp [h3], h4.trans hf.hash⟩
  obtain ⟨x, h1, h2⟩ := this
  have hx : x.pb.bald ∈ w.sys.mp.emitted.map PB.bald := by
    rw [i7, ← i2]
    exact List.mem_map.mpr ⟨x.pb, mem_handed.mpr ⟨x, h1, rfl⟩, rfl⟩
  obtain ⟨y, hy, e⟩ := List.mem_map.mp hx
  refine List.mem_map.mpr ⟨y, hy, ?_⟩
  have : y.bald.hash = x.pb.bald.hash := by rw [e]
  exact this.trans h2

/-- When everything has been read and handled, every block was handed on. -/
theorem WSInv.all (hall : WsComplete bs conns) {w : WSys} (hv : WSInv C env o cfg bs conns w) (ht : w.todo = []) (hl : w.later = [])
    (hd : w.sys.todo = []) : ∀ b ∈ bs, b.1.hash ∈ Spec.hashes w.sys.mp.emitted := fun _ hb => hv.one ht hl hd hb (hall _ hb)

theorem WSInv.fine (h : WsCarried bs conns) {w : WSys} (hv : WSInv C env o cfg bs conns w)
    (hord : ∀ omp0 (ds : List PB), newOMP cfg = .ok omp0 → (∀ pb ∈ ds, ∃ b ∈ bs, WsSeen b.1 b.2 pb) → ∃ s, omp0.run o (ds.map OOp.block) = .ok s) :
    ¬ Faulty C env o w.sys := by
  obtain ⟨s0, r1, r2⟩ := hv.run
  obtain ⟨omp0, ds, done, rest, i1, i2, i3, i4, i5, i6, i7⟩ := blocks_inside r1 r2
  rintro (⟨c, cs, f, ht, hf⟩ | ⟨pb, r, f, ht, hf⟩)
  · rw [i3] at ht
    cases rest with
    | nil => simp at ht
    | cons y rest =>
      simp only [List.map_cons, List.cons.injEq] at ht
      rw [← ht.1] at hf
      simp [MP.call] at hf
  · obtain ⟨s', g1⟩ := hord omp0 (ds ++ [pb]) i1 (by
      intro x hx
      refine hv.emitted h ?_
      rw [i6, ht]
      rcases List.mem_append.mp hx with hx | hx
      · simp [hx]
      · simp [List.mem_singleton.mp hx])
    rw [List.map_append] at g1
    unfold OMP.run at g1
    rw [List.foldlM_append, show List.foldlM (OMP.op o) omp0 (ds.map OOp.block) = .ok w.sys.omp from i5] at g1
    have g1 : (([pb].map OOp.block).foldlM (OMP.op o) w.sys.omp) = .ok s' := g1
    rw [List.map_cons, List.foldlM_cons] at g1
    rw [show OMP.op o w.sys.omp (.block pb) = .error f from hf] at g1
    simp [bind, Except.bind] at g1

/-! ## C88 -/

/-- What is left to do. -/
def WSys.work (w : WSys) : Nat × Nat × Nat := (w.todo.length + (w.later.map (fun ms => ms.length + 1)).sum, w.sys.work)

theorem wsys_less {w w' : WSys} (h : WSys.Step C env o w w') : Prod.Lex (· < ·) (Prod.Lex (· < ·) (· < ·)) w'.work w.work := by
  cases h with
  | read _ _ hm => exact .left _ _ (by simp only [hm, List.length_cons]; omega)
  | reorg _ _ hm => exact .left _ _ (by simp only [hm, List.length_cons]; omega)
  | reconnect _ _ hm hl => exact .left _ _ (by simp only [hm, hl, List.map_cons, List.sum_cons, List.length_nil]; omega)
  | inner hs => exact .right _ hs.less

theorem wsys_no_endless (f : Nat → WSys) (h : ∀ n, WSys.Step C env o (f n) (f (n + 1))) : False := by
  have wf : WellFounded (Prod.Lex (α := Nat) (β := Nat × Nat) (· < ·) (Prod.Lex (· < ·) (· < ·))) :=
    (Prod.lex ⟨_, Nat.lt_wfRel.wf⟩ (Prod.lex ⟨_, Nat.lt_wfRel.wf⟩ ⟨_, Nat.lt_wfRel.wf⟩)).wf
  have : ∀ x, Acc (Prod.Lex (α := Nat) (β := Nat × Nat) (· < ·) (Prod.Lex (· < ·) (· < ·))) x → ∀ n, (f n).work = x → False := by
    intro x hx
    induction hx with
    | intro x _ ih =>
      rintro n rfl
      exact ih _ (wsys_less (h n)) (n + 1) rfl
  exact this _ (wf.apply _) 0 rfl

variable {num : Int} {first : List WMsg} {later : List (List WMsg)}

theorem wsys_goesOn (h : WsCarried bs conns) {w : WSys} (hv : WSInv C env o cfg bs conns w) (hnf : ¬ Faulty C env o w.sys) :
    ¬ w.Faulting C env o ∧ ((∃ w', WSys.Step C env o w w') ∨ w.sys.Drained ∧ w.todo = [] ∧ w.later = []) := by
  obtain ⟨hist, seen, l0, l, e1, _⟩ := hv.pos
  have hmem : seen ++ w.todo ∈ conns := by rw [e1]; simp
  refine ⟨?_, ?_⟩
  · rintro (⟨m, ms, mo, f, _, _, hm, hf⟩ | hf)
    · obtain ⟨_, h2, _⟩ := h.only _ hmem m (by rw [hm]; simp)
      obtain ⟨d, hd⟩ := wstep_ok (c := w.conn) (mo := mo) h2
      rw [hd] at hf
      cases hf
    · exact hnf hf
  · by_cases hd : w.sys.Drained
    · cases ht : w.todo with
      | cons m ms =>
        left
        obtain ⟨h1, h2, _⟩ := h.only _ hmem m (by rw [ht]; simp)
        obtain ⟨d, hd'⟩ := wstep_ok (c := w.conn) (mo := MapOrder.plain) h2
        exact ⟨_, .read hd.1 hd.2.1 ht h1 hd'⟩
      | nil =>
        cases hl : w.later with
        | cons ms later' => exact .inl ⟨_, .reconnect hd.1 hd.2.1 ht hl⟩
        | nil => exact .inr ⟨hd, rfl, rfl⟩
    · left
      obtain ⟨s, hs⟩ := (w.sys.progress (C := C) (env := env) (o := o) hd).resolve_right hnf
      exact ⟨_, .inner hs⟩

theorem wsys_progress (h : WsCarried bs (first :: later)) {w0 : WSys} (h0 : WSys.start cfg num first later = .ok w0)
    (hord : ∀ omp0 (ds : List PB), newOMP cfg = .ok omp0 → (∀ pb ∈ ds, ∃ b ∈ bs, WsSeen b.1 b.2 pb) → ∃ s, omp0.run o (ds.map OOp.block) = .ok s) {w : WSys}
    (hw : WSys.Steps C env o w0 w) :
    ¬ w.Faulting C env o ∧ ((∃ w', WSys.Step C env o w w') ∨ w.sys.Drained ∧ w.todo = [] ∧ w.later = []) := by
  have hv := wsinv_steps h rfl h0 hw
  exact wsys_goesOn h hv (hv.fine h hord)

/-- **C88**, no faults and no deadlock: neither goroutine of a websocket consumer is ever about to fault, there are no endless executions, and one that
cannot be continued has read and handled everything. -/
theorem C88_progress (h : WsFeed cfg n bs (first :: later)) {w0 : WSys} (h0 : WSys.start cfg num first later = .ok w0) :
    (∀ f : Nat → WSys, ¬ ∀ n, WSys.Step C env o (f n) (f (n + 1))) ∧
    ∀ w, WSys.Steps C env o w0 w → ¬ w.Faulting C env o ∧
      ((∃ w', WSys.Step C env o w w') ∨ w.sys.Drained ∧ w.todo = [] ∧ w.later = []) := by
  refine ⟨fun f hf => wsys_no_endless f hf, fun w hw => wsys_progress h.toWsCarried h0 ?_ hw⟩
  intro omp0 ds hn hds
  obtain ⟨s, _, _, g, _⟩ := h.ordered (o := o) hn hds
  exact ⟨s, g⟩

/-- **C88**: when a websocket consumer has come to rest, under any schedule of its goroutines, the subscribers have seen each block of the chain exactly
once, in chain order, each exactly as given to the producer, and nothing removed. The blocks may come in any order, interleaved, sub-batches before
their batch, and over several connections: what one connection began, another may have to begin again. -/
theorem C88_delivered (h : WsFeed cfg n bs (first :: later)) {w0 w : WSys} (h0 : WSys.start cfg num first later = .ok w0)
    (hw : WSys.Steps C env o w0 w) (hstuck : ∀ w', ¬ WSys.Step C env o w w') :
    (∀ x ∈ w.sys.omp.log, (∃ a, x = .update a []) ∨ ∃ b ∈ bs, x = .evictOlder b.1.number) ∧
    (w.sys.omp.log.flatMap addedBy).length = bs.length ∧
    ∀ x ∈ bs.zip (w.sys.omp.log.flatMap addedBy), WsSeen x.1.1 x.1.2 x.2 := by
  have hv := wsinv_steps h.toWsCarried rfl h0 hw
  obtain ⟨hd, ht, hl⟩ := (((C88_progress (C := C) (env := env) (o := o) h h0).2 w hw).2).resolve_left (fun ⟨w', hw'⟩ => hstuck w' hw')
  obtain ⟨s0, r1, r2⟩ := hv.run
  obtain ⟨omp0, ds, done, rest, i1, i2, i3, i4, i5, i6, i7⟩ := blocks_inside r1 r2
  rw [hd.1] at i3
  have hrest : rest = [] := List.map_eq_nil_iff.mp i3.symm
  subst hrest
  rw [List.append_nil] at i2
  rw [hd.2.1, hd.2.2.1] at i6
  have i6 : w.sys.mp.emitted = ds := by simpa [blocksSent] using i6
  have hex : ∀ pb ∈ ds, ∃ b ∈ bs, WsSeen b.1 b.2 pb := fun pb hpb => hv.emitted h.toWsCarried (by rw [i6]; exact hpb)
  obtain ⟨s', em, rest, g1, g2, g3, g4, g5⟩ := h.ordered (o := o) i1 hex
  rw [i5] at g1
  have g1 := Except.ok.inj g1
  subst g1
  have hrest : rest = [] := by
    cases rest with
    | nil => rfl
    | cons y rest =>
      have : y ∈ (bs.map wsSent).map bare := by rw [g2]; simp
      obtain ⟨sb, hsb, rfl⟩ := List.mem_map.mp this
      obtain ⟨b, hb, rfl⟩ := List.mem_map.mp hsb
      exact absurd (by rw [← i6]; exact hv.all h.all ht hl hd.1 b hb) (g5 _ _ rfl).1
  rw [hrest, List.append_nil] at g2
  rw [← g2] at g3
  have hhash : (w.sys.omp.log.flatMap addedBy).map PB.hash = bs.map (·.1.hash) := by
    have : addedHashes w.sys.omp.log = (w.sys.omp.log.flatMap addedBy).map PB.hash := rfl
    rw [← this, g3]
    simp [Spec.hashes, bare, wsSent, Function.comp_def]
  have hlen : (w.sys.omp.log.flatMap addedBy).length = bs.length := by
    have := congrArg List.length hhash
    simpa using this
  refine ⟨?_, hlen, ?_⟩
  · intro x hx
    rcases g4 x hx with h | ⟨sb, hsb, e⟩
    · exact .inl h
    · obtain ⟨b, hb, rfl⟩ := List.mem_map.mp hsb
      exact .inr ⟨b, hb, e⟩
  intro x hx
  obtain ⟨i, hi, rfl⟩ := List.mem_iff_getElem.mp hx
  simp only [List.length_zip] at hi
  rw [List.getElem_zip]
  simp only []
  have hpb : (w.sys.omp.log.flatMap addedBy)[i] ∈ w.sys.omp.log.flatMap addedBy := List.getElem_mem _
  have hheq : ((w.sys.omp.log.flatMap addedBy)[i]).hash = (bs[i]).1.hash := by
    have := congrArg (fun l => l[i]?) hhash
    simp only [List.getElem?_map] at this
    rw [List.getElem?_eq_getElem (by omega), List.getElem?_eq_getElem (by omega)] at this
    simpa using this
  obtain ⟨out, hout, hin⟩ := List.mem_flatMap.mp hpb
  cases out with
  | update a r =>
    have hem := C43_updates r1 r2 hout (List.mem_append_left _ hin)
    obtain ⟨b, hb, he⟩ := hv.emitted h.toWsCarried hem
    have hnd : (bs.map (·.1.hash)).Nodup := ((List.nodup_cons.mp (List.nodup_cons.mp h.hashes).2).2)
    have : b = bs[i] := by
      obtain ⟨j, hj, rfl⟩ := List.mem_iff_getElem.mp hb
      have e : (bs.map (·.1.hash))[j]'(by simpa using hj) = (bs.map (·.1.hash))[i]'(by simp; omega) := by
        rw [List.getElem_map, List.getElem_map]
        exact he.hash.symm.trans hheq
      have := (List.getElem_inj hnd).mp e
      subst this
      rfl
    rw [this] at he
    exact he
  | reorg n x => simp [addedBy] at hin
  | evictOlder n => simp [addedBy] at hin

end

/-! ## With the producer -/

/-- The block a call adds. -/
def Spec.addOf : WOp → Option BlockArgs
  | .add _ a => some a
  | .send .. => none

/-- A producer is given the blocks, each once, and their sub-batches, each at least once after its block; the calls may be interleaved in any way,
and there may be others that send ids nobody announced. -/
structure Spec.WsPublishes (bs : List WsArgs) (ops : List WOp) : Prop where
  textual : ∀ b ∈ bs, Textual b.1 b.2
  number : ∀ b ∈ bs, InInt64 b.1.number
  ids : ∀ b ∈ bs, (b.1.batches.entries.map Prod.snd).Nodup
  agree : ∀ b ∈ bs, ∀ k v w, WsValue b.1 b.2 k v → WsValue b.1 b.2 k w → v = w
  adds : (ops.filterMap addOf).Perm (bs.map Prod.fst)
  apart : ∀ b ∈ bs, ∀ b' ∈ bs, ∀ id, (∃ p, b.1.batches.get? p = some id) → (∃ p, b'.1.batches.get? p = some id) → b.1.hash = b'.1.hash
  sends : ∀ id s, WOp.send id s ∈ ops → ∀ b ∈ bs, (∃ p, b.1.batches.get? p = some id) → s = b.2 id
  all : ∀ b ∈ bs, ∀ id, (∃ p, b.1.batches.get? p = some id) → ∃ l o r, ops = l ++ .add o b.1 :: r ∧ .send id (b.2 id) ∈ r

/-- The messages of a producer. -/
def wsSentBy (ops : List WOp) : List WMsg := (ops.foldl WOp.apply WProducer.new).sent

theorem wsSentBy_snoc (ops : List WOp) (op : WOp) : wsSentBy (ops ++ [op]) = wsSentBy ops ++ match op with
    | .add o a => [.batch (wsBatch o a.number a.hash a.parentHash a.weight a.updates a.deletes a.batches)]
    | .send id s => match (ops.foldl WOp.apply WProducer.new).expected.get? id with
      | none => []
      | some h => [.sub ⟨h, id, s.updates, s.deletes⟩] := by
  unfold wsSentBy
  rw [List.foldl_append, List.foldl_cons, List.foldl_nil]
  cases op with
  | add o a => rfl
  | send id s =>
    simp only [WOp.apply, WProducer.sendBatch]
    cases (ops.foldl WOp.apply WProducer.new).expected.get? id <;> simp

theorem wsSentBy_prefix (l r : List WOp) : wsSentBy l <+: wsSentBy (l ++ r) := by
  induction r using snoc_induction with
  | nil => simp
  | snoc r op ih =>
    rw [← List.append_assoc, wsSentBy_snoc]
    exact ih.trans (List.prefix_append _ _)

/-- The batch messages. -/
def batchHash : WMsg → Option Hash
  | .batch b => some b.hash
  | _ => none

theorem wsSentBy_hashes (ops : List WOp) : (wsSentBy ops).filterMap batchHash = (ops.filterMap addOf).map (·.hash) := by
  induction ops using snoc_induction with
  | nil => rfl
  | snoc ops op ih =>
    rw [wsSentBy_snoc, List.filterMap_append, List.filterMap_append, ih, List.map_append]
    congr 1
    cases op with
    | add o a => rfl
    | send id s =>
      simp only []
      cases (ops.foldl WOp.apply WProducer.new).expected.get? id <;> rfl

theorem wsSentBy_mem {ops : List WOp} {m : WMsg} (h : m ∈ wsSentBy ops) :
    (∃ o a, WOp.add o a ∈ ops ∧ m = .batch (wsBatch o a.number a.hash a.parentHash a.weight a.updates a.deletes a.batches)) ∨
    ∃ id s o a, WOp.send id s ∈ ops ∧ WOp.add o a ∈ ops ∧ (∃ p, a.batches.get? p = some id) ∧ m = .sub ⟨a.hash, id, s.updates, s.deletes⟩ := by
  induction ops using snoc_induction with
  | nil => cases h
  | snoc ops op ih =>
    rw [wsSentBy_snoc] at h
    rcases List.mem_append.mp h with h | h
    · rcases ih h with ⟨o, a, h1, h2⟩ | ⟨id, s, o, a, h1, h2, h3⟩
      · exact .inl ⟨o, a, by simp [h1], h2⟩
      · exact .inr ⟨id, s, o, a, by simp [h1], by simp [h2], h3⟩
    · cases op with
      | add o a =>
        simp only [List.mem_singleton] at h
        exact .inl ⟨o, a, by simp, h⟩
      | send id s =>
        simp only [] at h
        cases hx : (ops.foldl WOp.apply WProducer.new).expected.get? id with
        | none => simp [hx] at h
        | some y =>
          simp only [hx, List.mem_singleton] at h
          obtain ⟨l, o, a, r, e, h1, h2, _⟩ := (expected_owner ops id y).mp hx
          exact .inr ⟨id, s, o, a, by simp, by rw [e]; simp, h1, by rw [h2]; exact h⟩

theorem wsSentBy_add {l r : List WOp} {o : MapOrder} {a : BlockArgs} :
    WMsg.batch (wsBatch o a.number a.hash a.parentHash a.weight a.updates a.deletes a.batches) ∈ wsSentBy (l ++ .add o a :: r) := by
  have h := wsSentBy_prefix (l ++ [.add o a]) r
  have e : l ++ [.add o a] ++ r = l ++ .add o a :: r := by simp
  rw [e] at h
  refine h.subset ?_
  rw [wsSentBy_snoc]; simp

section
variable {cfg : Config} {n : Int} {bs : List WsArgs} {ops : List WOp}

theorem Spec.WsPublishes.block (h : WsPublishes bs ops) {o : MapOrder} {a : BlockArgs} (hm : WOp.add o a ∈ ops) : ∃ b ∈ bs, b.1 = a := by
  have : a ∈ ops.filterMap addOf := List.mem_filterMap.mpr ⟨_, hm, rfl⟩
  obtain ⟨b, hb, e⟩ := List.mem_map.mp (h.adds.mem_iff.mp this)
  exact ⟨b, hb, e⟩

theorem Spec.WsPublishes.nodup (h : WsPublishes bs ops) (hn : (bs.map (·.1.hash)).Nodup) : ((ops.filterMap addOf).map (·.hash)).Nodup := by
  rw [(h.adds.map (·.hash)).nodup_iff, List.map_map]
  exact hn

theorem Spec.WsPublishes.alone (h : WsPublishes bs ops) (hn : (bs.map (·.1.hash)).Nodup) {l r : List WOp} {o : MapOrder} {b : WsArgs}
    (e : ops = l ++ .add o b.1 :: r) : ∀ o' a, WOp.add o' a ∈ l ++ r → a.hash ≠ b.1.hash := by
  subst e
  intro o' a ha e
  have hnd := h.nodup hn
  rw [List.filterMap_append, List.filterMap_cons, List.map_append] at hnd
  simp only [addOf, List.map_cons] at hnd
  have hp := (List.perm_middle.nodup_iff.mp hnd)
  rw [List.nodup_cons] at hp
  refine hp.1 ?_
  rw [← e]
  rcases List.mem_append.mp ha with ha | ha
  · exact List.mem_append_left _ (List.mem_map.mpr ⟨a, List.mem_filterMap.mpr ⟨_, ha, rfl⟩, rfl⟩)
  · exact List.mem_append_right _ (List.mem_map.mpr ⟨a, List.mem_filterMap.mpr ⟨_, ha, rfl⟩, rfl⟩)

/-- Each block is added in one place. -/
theorem Spec.WsPublishes.place (h : WsPublishes bs ops) {b : WsArgs} (hb : b ∈ bs) : ∃ l o r, ops = l ++ .add o b.1 :: r := by
  have h1 : b.1 ∈ ops.filterMap addOf := h.adds.mem_iff.mpr (List.mem_map.mpr ⟨b, hb, rfl⟩)
  obtain ⟨x, hx, e⟩ := List.mem_filterMap.mp h1
  cases x with
  | send => cases e
  | add o a =>
    simp only [addOf, Option.some.injEq] at e
    subst e
    obtain ⟨l, r, rfl⟩ := List.append_of_mem hx
    exact ⟨l, o, r, rfl⟩

theorem Spec.WsPublishes.form (h : WsPublishes bs ops) {b : WsArgs} (hb : b ∈ bs) (o o' : MapOrder) :
    WsForm b.1 b.2 (wsMessages o o' b.1 b.2).1 (wsMessages o o' b.1 b.2).2 :=
  .live o o' (h.textual b hb) (h.number b hb) (h.ids b hb) (h.agree b hb)

theorem Spec.WsPublishes.idsOf (h : WsPublishes bs ops) {b : WsArgs} (hb : b ∈ bs) (o o' : MapOrder) (id : Hash) :
    id ∈ Spec.idsOf (wsMessages o o' b.1 b.2).1 ↔ ∃ p, b.1.batches.get? p = some id :=
  (wsMessages_form (h.textual b hb) (h.number b hb) (h.ids b hb) (h.agree b hb) o o').2.2.1 id

theorem split_first {ops : List WOp} {id : Hash} {s : SubArgs} (h : WOp.send id s ∈ ops) :
    ∃ l s' r, ops = l ++ .send id s' :: r ∧ ∀ s'', WOp.send id s'' ∉ l := by
  induction ops with
  | nil => cases h
  | cons op ops ih =>
    by_cases hop : ∃ s', op = .send id s'
    · obtain ⟨s', rfl⟩ := hop
      exact ⟨[], s', ops, rfl, by simp⟩
    · rcases List.mem_cons.mp h with e | h
      · exact absurd ⟨s, e.symm⟩ hop
      · obtain ⟨l, s', r, e, hl⟩ := ih h
        refine ⟨op :: l, s', r, by rw [e]; rfl, ?_⟩
        intro s'' hm
        rcases List.mem_cons.mp hm with e | hm
        · exact hop ⟨s'', e.symm⟩
        · exact hl s'' hm

/-- All messages of a block are sent: at the latest by the calls up to `l ++ .add o b :: r`, if they send the id. -/
theorem Spec.WsPublishes.sentBy (h : WsPublishes bs ops) (hn : (bs.map (·.1.hash)).Nodup) {b : WsArgs} (hb : b ∈ bs) {id : Hash}
    (hid : ∃ p, b.1.batches.get? p = some id) {l r rest : List WOp} {o : MapOrder} (e : ops = (l ++ .add o b.1 :: r) ++ rest)
    (hm : .send id (b.2 id) ∈ r) :
    WMsg.sub ⟨b.1.hash, id, (b.2 id).updates, (b.2 id).deletes⟩ ∈ wsSentBy (l ++ .add o b.1 :: r) := by
  obtain ⟨r1, s', r2, e', hfirst⟩ := split_first hm
  rw [e']
  have hs' : s' = b.2 id := h.sends id s' (by rw [e, e']; simp) b hb hid
  have hown : Owner (l ++ .add o b.1 :: r1) id b.1.hash := by
    refine ⟨l, o, b.1, r1, rfl, hid, rfl, ?_⟩
    intro x hx hc
    cases x with
    | send y s =>
      have : y = id := hc
      subst this
      exact hfirst s hx
    | add o2 a =>
      obtain ⟨b', hb', rfl⟩ := h.block (o := o2) (a := a) (by rw [e, e']; simp [hx])
      have heq := h.apart b hb b' hb' id hid hc
      exact h.alone hn (l := l) (o := o) (r := r1 ++ .send id s' :: r2 ++ rest) (by rw [e, e']; simp) o2 b'.1 (by simp [hx]) heq.symm
  have hp := wsSentBy_prefix (l ++ .add o b.1 :: r1 ++ [.send id s']) r2
  have e2 : l ++ .add o b.1 :: r1 ++ [.send id s'] ++ r2 = l ++ .add o b.1 :: (r1 ++ .send id s' :: r2) := by simp
  rw [e2] at hp
  refine hp.subset ?_
  rw [wsSentBy_snoc]
  have hx := (expected_owner (l ++ .add o b.1 :: r1) id b.1.hash).mpr hown
  simp only [hx, hs']
  simp

theorem Spec.WsPublishes.sentAll (h : WsPublishes bs ops) (hn : (bs.map (·.1.hash)).Nodup) {b : WsArgs} (hb : b ∈ bs) {id : Hash}
    (hid : ∃ p, b.1.batches.get? p = some id) : WMsg.sub ⟨b.1.hash, id, (b.2 id).updates, (b.2 id).deletes⟩ ∈ wsSentBy ops := by
  obtain ⟨l, o, r, e, hm⟩ := h.all b hb id hid
  have := h.sentBy hn hb hid (l := l) (o := o) (rest := []) (by rw [e]; simp) hm
  rw [e]; exact this

/-- What is sent over a connection is right for every block. -/
theorem Spec.WsPublishes.carriesAt (h : WsPublishes bs ops) (hn : (bs.map (·.1.hash)).Nodup) (o' : MapOrder) {b : WsArgs} (hb : b ∈ bs)
    {l r : List WOp} {o : MapOrder} (e : ops = l ++ .add o b.1 :: r) :
    OneBatch (wsMessages o o' b.1 b.2).1 (wsMessages o o' b.1 b.2).2 ((wsSentBy ops).map (WMsg.json o')) ∧
    AllParts (wsMessages o o' b.1 b.2).1 (wsMessages o o' b.1 b.2).2 ((wsSentBy ops).map (WMsg.json o')) := by
  have hplace := h.alone hn e
  have hinj : ∀ b' ∈ bs, b'.1.hash = b.1.hash → b' = b := by
    intro b' hb' eq
    obtain ⟨i, hi, rfl⟩ := List.mem_iff_getElem.mp hb
    obtain ⟨j, hj, rfl⟩ := List.mem_iff_getElem.mp hb'
    have e : (bs.map (·.1.hash))[j]'(by simpa using hj) = (bs.map (·.1.hash))[i]'(by simpa using hi) := by
      rw [List.getElem_map, List.getElem_map]; exact eq
    have := (List.getElem_inj hn).mp e
    subst this; rfl
  refine ⟨⟨?_, ?_⟩, ?_⟩
  · intro m hm
    obtain ⟨x, hx, rfl⟩ := List.mem_map.mp hm
    rcases wsSentBy_mem hx with ⟨o2, a, h1, rfl⟩ | ⟨id, s, o2, a, h1, h2, h3, rfl⟩
    · by_cases heq : a.hash = b.1.hash
      · left
        have : WOp.add o2 a = .add o b.1 := by
          rw [e] at h1
          rcases List.mem_append.mp h1 with h1 | h1
          · exact absurd heq (hplace o2 a (by simp [h1]))
          · rcases List.mem_cons.mp h1 with h1 | h1
            · exact h1
            · exact absurd heq (hplace o2 a (by simp [h1]))
        cases this
        exact PartOf.batch
      · right
        obtain ⟨b', hb', rfl⟩ := h.block h1
        refine ⟨heq, ?_⟩
        intro id h4 h5
        rw [h.idsOf hb o o'] at h5
        have h4 := (h.idsOf hb' o2 o' id).mp h4
        exact heq (h.apart b' hb' b hb id h4 h5)
    · obtain ⟨b', hb', rfl⟩ := h.block h2
      by_cases heq : b'.1.hash = b.1.hash
      · left
        have := hinj b' hb' heq
        subst this
        have hs := h.sends id s h1 b' hb h3
        subst hs
        exact PartOf.sub (id := id) ((h.idsOf hb o o' id).mpr h3)
      · right
        refine ⟨heq, ?_⟩
        intro h5
        have h5 := (h.idsOf hb o o' id).mp h5
        exact heq (h.apart b' hb' b hb id h3 h5)
  · intro x y hxy hmem
    have hnd : (((wsSentBy ops).map (WMsg.json o')).filterMap batchHash).Nodup := by
      have : ((wsSentBy ops).map (WMsg.json o')).filterMap batchHash = (wsSentBy ops).filterMap batchHash := by
        rw [List.filterMap_map]
        congr 1
        funext m
        cases m <;> rfl
      rw [this, wsSentBy_hashes]
      exact h.nodup hn
    rw [hxy, List.filterMap_append, List.filterMap_cons] at hnd
    simp only [batchHash] at hnd
    have hp := (List.perm_middle.nodup_iff.mp hnd)
    rw [List.nodup_cons] at hp
    exact hp.1 (List.mem_append_left _ (List.mem_filterMap.mpr ⟨_, hmem, rfl⟩))
  · rw [allParts_iff]
    refine ⟨?_, ?_⟩
    · rw [e]
      exact List.mem_map.mpr ⟨_, wsSentBy_add, rfl⟩
    · intro id hid
      have hid := (h.idsOf hb o o' id).mp hid
      exact List.mem_map.mpr ⟨_, h.sentAll hn hb hid, rfl⟩

theorem Spec.WsPublishes.carries (h : WsPublishes bs ops) (hn : (bs.map (·.1.hash)).Nodup) (o' : MapOrder) {b : WsArgs} (hb : b ∈ bs) :
    ∃ tb ts, WsForm b.1 b.2 tb ts ∧ OneBatch tb ts ((wsSentBy ops).map (WMsg.json o')) ∧ AllParts tb ts ((wsSentBy ops).map (WMsg.json o')) := by
  obtain ⟨l, o, r, e⟩ := h.place hb
  exact ⟨_, _, h.form hb o o', h.carriesAt hn o' hb e⟩

theorem Spec.WsPublishes.carried (h : WsPublishes bs ops) (hn : (bs.map (·.1.hash)).Nodup) (hweight : ∀ b ∈ bs, 0 ≤ b.1.weight) (o' : MapOrder) :
    WsCarried bs [(wsSentBy ops).map (WMsg.json o')] ∧ WsComplete bs [(wsSentBy ops).map (WMsg.json o')] := by
  refine ⟨⟨hweight, ?_, ?_⟩, ?_⟩
  · intro ms hms b hb
    simp only [List.mem_singleton] at hms
    subst hms
    obtain ⟨tb, ts, h1, h2, _⟩ := h.carries hn o' hb
    exact ⟨tb, ts, h1, h2⟩
  · intro ms hms m hm
    simp only [List.mem_singleton] at hms
    subst hms
    obtain ⟨x, hx, rfl⟩ := List.mem_map.mp hm
    rcases wsSentBy_mem hx with ⟨o2, a, h1, rfl⟩ | ⟨id, s, o2, a, _, _, _, rfl⟩
    · refine ⟨by simp [WMsg.json], by simp [WMsg.json], ?_⟩
      intro y hy
      simp only [WMsg.json, WMsg.batch.injEq] at hy
      obtain ⟨b, hb, rfl⟩ := h.block h1
      exact ⟨b, hb, by rw [← hy]; rfl⟩
    · exact ⟨by simp [WMsg.json], by simp [WMsg.json], by simp [WMsg.json]⟩
  · intro b hb
    obtain ⟨tb, ts, h1, h2, h3⟩ := h.carries hn o' hb
    exact ⟨_, by simp, tb, ts, h1, h2, h3⟩

/-- **C88**, with the producer: whatever the order of the calls on a websocket producer, the subscribers of a consumer connected to it see each block exactly once, in
chain order and exactly as it was given to the producer. -/
theorem C88_published (h : WsPublishes bs ops) (hlinks : ChainOf cfg.lastHash n cfg.lastWeight (bs.map wsSent))
    (hhash : (Hash.zero :: cfg.lastHash :: bs.map (·.1.hash)).Nodup)
    (hwl : ∀ b ∈ bs, ∀ h, cfg.whitelist.get? (heightKey b.1.number) = some h → h = b.1.hash) (hweight : ∀ b ∈ bs, 0 ≤ b.1.weight)
    (o' : MapOrder) {num : Int} {w0 : WSys} (h0 : WSys.start cfg num ((wsSentBy ops).map (WMsg.json o')) [] = .ok w0) :
    (∀ w, WSys.Steps C env o w0 w → ¬ w.Faulting C env o) ∧
    ∀ w, WSys.Steps C env o w0 w → (∀ w', ¬ WSys.Step C env o w w') →
      (∀ x ∈ w.sys.omp.log, (∃ a, x = .update a []) ∨ ∃ b ∈ bs, x = .evictOlder b.1.number) ∧
      (w.sys.omp.log.flatMap addedBy).length = bs.length ∧
      ∀ x ∈ bs.zip (w.sys.omp.log.flatMap addedBy), WsSeen x.1.1 x.1.2 x.2 := by
  have hn : (bs.map (·.1.hash)).Nodup := ((List.nodup_cons.mp (List.nodup_cons.mp hhash).2).2)
  obtain ⟨h1, h2⟩ := h.carried hn hweight o'
  have hf : WsFeed cfg n bs [(wsSentBy ops).map (WMsg.json o')] := ⟨h1, hlinks, hhash, hwl, h2⟩
  exact ⟨fun w hw => ((C88_progress hf h0).2 w hw).1, fun w hw hst => C88_delivered hf h0 hw hst⟩

end

/-! ## Example: two blocks, interleaved calls -/

def exWA1 : BlockArgs := ⟨5, exHash 1, exHash 2, 300, GMap.ofList [(str "a", [1])], GMap.ofList [(str "d", ())],
  GMap.ofList [(str "p/", exWId 0), (str "q/", exWId 1)]⟩
def exWA2 : BlockArgs := ⟨6, exHash 3, exHash 1, 310, GMap.ofList [(str "b", [2])], GMap.empty, GMap.ofList [(str "p/", exWId 2)]⟩
def exWS (id : Hash) : SubArgs :=
  if id = exWId 0 then ⟨[str "p/d"], GMap.ofList [(str "p/x", [3])]⟩
  else if id = exWId 1 then ⟨[], GMap.ofList [(str "q/x", [4]), (str "q/y", [5])]⟩
  else ⟨[], GMap.ofList [(str "p/x", [6])]⟩
def exWBlocks : List WsArgs := [(exWA1, exWS), (exWA2, exWS)]

/-- The second block is added before the sub-batches of the first are sent; one sub-batch is sent twice, and one that nobody announced. -/
def exWOps : List WOp := [.send (exWId 0) (exWS (exWId 0)), .add .plain exWA1, .send (exWId 1) (exWS (exWId 1)), .add .rev exWA2,
  .send (exWId 7) ⟨[], GMap.empty⟩, .send (exWId 2) (exWS (exWId 2)), .send (exWId 2) (exWS (exWId 2)), .send (exWId 0) (exWS (exWId 0))]

theorem exW_ids1 (id : Hash) : (∃ p, exWA1.batches.get? p = some id) ↔ id = exWId 0 ∨ id = exWId 1 := by
  have e : exWA1.batches.entries = [(str "p/", exWId 0), (str "q/", exWId 1)] := by decide +kernel
  simp only [GMap.get?_eq_some_iff, e, List.mem_cons, Prod.mk.injEq, List.not_mem_nil, or_false]
  constructor
  · rintro ⟨p, ⟨_, h⟩ | ⟨_, h⟩⟩
    · exact .inl h
    · exact .inr h
  · rintro (h | h)
    · exact ⟨_, .inl ⟨rfl, h⟩⟩
    · exact ⟨_, .inr ⟨rfl, h⟩⟩

theorem exW_ids2 (id : Hash) : (∃ p, exWA2.batches.get? p = some id) ↔ id = exWId 2 := by
  have e : exWA2.batches.entries = [(str "p/", exWId 2)] := by decide +kernel
  simp only [GMap.get?_eq_some_iff, e, List.mem_cons, Prod.mk.injEq, List.not_mem_nil, or_false]
  constructor
  · rintro ⟨p, _, h⟩; exact h
  · intro h; exact ⟨_, rfl, h⟩

theorem ascii_all {l : List GoStr} (h : l.all (fun k => k.all (fun b => b.toNat < 128)) = true) : ∀ k ∈ l, Utf8 k :=
  fun k hk => utf8_ascii (List.all_eq_true.mp h k hk)

/-- Values agree if the values of all parts, listed, agree. -/
theorem agree_of_list {a : BlockArgs} {subs : Hash → SubArgs} {ids : List Hash} (hids : ∀ id, (∃ p, a.batches.get? p = some id) → id ∈ ids)
    {l : List (GoStr × Bytes)} (h1 : ∀ e ∈ a.updates.entries, e ∈ l) (h2 : ∀ id ∈ ids, ∀ e ∈ (subs id).updates.entries, e ∈ l)
    (hl : ∀ e ∈ l, ∀ e' ∈ l, e.1 = e'.1 → e.2 = e'.2) : ∀ k v w, WsValue a subs k v → WsValue a subs k w → v = w := by
  have key : ∀ k v, WsValue a subs k v → (k, v) ∈ l := by
    rintro k v (h | ⟨p, id, hp, h⟩)
    · exact h1 _ ((GMap.get?_eq_some_iff _).mp h)
    · exact h2 id (hids id ⟨p, hp⟩) _ ((GMap.get?_eq_some_iff _).mp h)
  intro k v w hv hw
  exact hl _ (key k v hv) _ (key k w hw) rfl

theorem exW_publishes : WsPublishes exWBlocks exWOps := by
  have n12 : exWId 2 ≠ exWId 0 := by decide +kernel
  have n13 : exWId 2 ≠ exWId 1 := by decide +kernel
  have n10 : exWId 1 ≠ exWId 0 := by decide +kernel
  have two : ∀ {P : WsArgs → Prop}, P (exWA1, exWS) → P (exWA2, exWS) → ∀ b ∈ exWBlocks, P b := by
    intro P h1 h2 b hb
    simp only [exWBlocks, List.mem_cons, List.not_mem_nil, or_false] at hb
    rcases hb with rfl | rfl
    · exact h1
    · exact h2
  have hsv : ∀ id, id = exWId 0 ∨ id = exWId 1 ∨ id = exWId 2 → (∀ k ∈ (exWS id).updates.keys, Utf8 k) ∧ ∀ k ∈ (exWS id).deletes, Utf8 k := by
    rintro id (rfl | rfl | rfl) <;> exact ⟨ascii_all (by decide +kernel), ascii_all (by decide +kernel)⟩
  refine ⟨?_, two (by decide) (by decide), two (by decide +kernel) (by decide +kernel), ?_, ?_, ?_, ?_, ?_⟩
  · refine two ?_ ?_
    · refine ⟨ascii_all (by decide +kernel), ascii_all (by decide +kernel), ascii_all (by decide +kernel), ?_, ?_⟩
      · intro p id hp
        rcases (exW_ids1 id).mp ⟨p, hp⟩ with h | h
        · exact (hsv id (.inl h)).1
        · exact (hsv id (.inr (.inl h))).1
      · intro p id hp
        rcases (exW_ids1 id).mp ⟨p, hp⟩ with h | h
        · exact (hsv id (.inl h)).2
        · exact (hsv id (.inr (.inl h))).2
    · refine ⟨ascii_all (by decide +kernel), ascii_all (by decide +kernel), ascii_all (by decide +kernel), ?_, ?_⟩
      · intro p id hp
        exact (hsv id (.inr (.inr ((exW_ids2 id).mp ⟨p, hp⟩)))).1
      · intro p id hp
        exact (hsv id (.inr (.inr ((exW_ids2 id).mp ⟨p, hp⟩)))).2
  · refine two ?_ ?_
    · exact agree_of_list (ids := [exWId 0, exWId 1]) (l := [(str "a", [1]), (str "p/x", [3]), (str "q/x", [4]), (str "q/y", [5])])
        (fun id h => by simpa using (exW_ids1 id).mp h) (by decide +kernel) (by decide +kernel) (by decide +kernel)
    · exact agree_of_list (ids := [exWId 2]) (l := [(str "b", [2]), (str "p/x", [6])])
        (fun id h => by simpa using (exW_ids2 id).mp h) (by decide +kernel) (by decide +kernel) (by decide +kernel)
  · exact List.Perm.refl _
  · refine two (two ?_ ?_) (two ?_ ?_)
    · intros; rfl
    · intro id h1 h2
      rw [exW_ids1] at h1
      rw [exW_ids2] at h2
      subst h2
      rcases h1 with h1 | h1
      · exact absurd h1 n12
      · exact absurd h1 n13
    · intro id h2 h1
      rw [exW_ids1] at h1
      rw [exW_ids2] at h2
      subst h2
      rcases h1 with h1 | h1
      · exact absurd h1 n12
      · exact absurd h1 n13
    · intros; rfl
  · intro id s hs
    have n70 : exWId 7 ≠ exWId 0 := by decide +kernel
    have n71 : exWId 7 ≠ exWId 1 := by decide +kernel
    have n72 : exWId 7 ≠ exWId 2 := by decide +kernel
    have hs : s = exWS id ∨ id = exWId 7 := by
      simp only [exWOps, List.mem_cons, WOp.send.injEq, reduceCtorEq, false_or, List.not_mem_nil, or_false] at hs
      rcases hs with ⟨rfl, rfl⟩ | ⟨rfl, rfl⟩ | ⟨rfl, _⟩ | ⟨rfl, rfl⟩ | ⟨rfl, rfl⟩ | ⟨rfl, rfl⟩ <;> simp
    refine two ?_ ?_
    · intro h
      rcases hs with hs | hs
      · exact hs
      · rw [exW_ids1, hs] at h
        rcases h with h | h
        · exact absurd h n70
        · exact absurd h n71
    · intro h
      rcases hs with hs | hs
      · exact hs
      · rw [exW_ids2, hs] at h
        exact absurd h n72
  · refine two ?_ ?_
    · intro id h
      refine ⟨[_], _, _, rfl, ?_⟩
      rcases (exW_ids1 id).mp h with rfl | rfl <;> simp
    · intro id h
      refine ⟨[_, _, _], _, _, rfl, ?_⟩
      rcases (exW_ids2 id).mp h with rfl
      simp

theorem exW_links : ChainOf exSysCfg.lastHash 4 exSysCfg.lastWeight (exWBlocks.map wsSent) :=
  ⟨rfl, rfl, show (200 : Int) < 300 by decide, rfl, rfl, show (300 : Int) < 310 by decide, trivial⟩

theorem wsys_rests {C : Codec} {env : Env} {o : MapOrder} (w0 : WSys) : ∃ w, WSys.Steps C env o w0 w ∧ ∀ w', ¬ WSys.Step C env o w w' := by
  apply Classical.byContradiction
  intro hno
  have hno : ∀ w, WSys.Steps C env o w0 w → ∃ w', WSys.Step C env o w w' := by
    intro w hw
    apply Classical.byContradiction
    intro h
    exact hno ⟨w, hw, fun w' hw' => h ⟨w', hw'⟩⟩
  let f : Nat → { w : WSys // WSys.Steps C env o w0 w } := fun n => Nat.rec ⟨w0, .refl⟩
    (fun _ w => ⟨Classical.choose (hno w.1 w.2), .step w.2 (Classical.choose_spec (hno w.1 w.2))⟩) n
  exact wsys_no_endless (fun n => (f n).1) (fun n => Classical.choose_spec (hno (f n).1 (f n).2))

/-- C88: an execution of the example that has come to rest exists, and the subscribers have seen both blocks. -/
example : ∃ w0 w, WSys.start exSysCfg 4 ((wsSentBy exWOps).map (WMsg.json .rev)) [] = .ok w0 ∧ WSys.Steps Avro.codec exEnv .plain w0 w ∧
    (w.sys.omp.log.flatMap addedBy).length = 2 ∧ ∀ x ∈ exWBlocks.zip (w.sys.omp.log.flatMap addedBy), WsSeen x.1.1 x.1.2 x.2 := by
  obtain ⟨w0, h0⟩ : ∃ w0, WSys.start exSysCfg 4 ((wsSentBy exWOps).map (WMsg.json .rev)) [] = .ok w0 := ⟨_, rfl⟩
  obtain ⟨w, hw, hst⟩ := wsys_rests (C := Avro.codec) (env := exEnv) (o := .plain) w0
  have := (C88_published exW_publishes exW_links (by show [Hash.zero, exHash 2, exHash 1, exHash 3].Nodup; decide)
    (by intro s _ x hx; simp [exSysCfg, exCfg] at hx) (by decide) .rev h0).2 w hw hst
  exact ⟨w0, w, h0, hw, this.2⟩

/-- What the first connection of the next example carries: the first block and a part of the second. -/
def exWFirst : List WMsg := ((wsSentBy exWOps).map (WMsg.json .plain)).take 4

/-- The hypotheses of `C88_delivered` for two connections: the first breaks before the second block is complete, so that it has to come again
completely. -/
theorem exW_twice : WsFeed exSysCfg 4 exWBlocks [exWFirst, (wsSentBy exWOps).map (WMsg.json .plain)] := by
  have hh : (Hash.zero :: exSysCfg.lastHash :: exWBlocks.map (·.1.hash)).Nodup := by
    show [Hash.zero, exHash 2, exHash 1, exHash 3].Nodup; decide
  have hn := ((List.nodup_cons.mp (List.nodup_cons.mp hh).2).2)
  have hsub : ∀ m ∈ exWFirst, m ∈ (wsSentBy exWOps).map (WMsg.json .plain) := fun m hm => (List.take_subset _ _) hm
  have honly : ∀ m ∈ (wsSentBy exWOps).map (WMsg.json .plain), (∀ n h, m ≠ .reorg n h) ∧ m ≠ .hollow ∧
      ∀ x, m = .batch x → ∃ b ∈ exWBlocks, x.hash = b.1.hash := by
    intro m hm
    obtain ⟨x, hx, rfl⟩ := List.mem_map.mp hm
    rcases wsSentBy_mem hx with ⟨o2, a, h1, rfl⟩ | ⟨id, s, o2, a, _, _, _, rfl⟩
    · refine ⟨by simp [WMsg.json], by simp [WMsg.json], ?_⟩
      intro y hy
      simp only [WMsg.json, WMsg.batch.injEq] at hy
      obtain ⟨b, hb, rfl⟩ := exW_publishes.block h1
      exact ⟨b, hb, by rw [← hy]; rfl⟩
    · exact ⟨by simp [WMsg.json], by simp [WMsg.json], by simp [WMsg.json]⟩
  refine ⟨⟨by decide, ?_, ?_⟩, exW_links, hh, by intro s _ x hx; simp [exSysCfg, exCfg] at hx, ?_⟩
  · intro ms hms b hb
    obtain ⟨tb, ts, h1, h2, _⟩ := exW_publishes.carries hn .plain hb
    simp only [List.mem_cons, List.not_mem_nil, or_false] at hms
    rcases hms with rfl | rfl
    · refine ⟨tb, ts, h1, ⟨fun m hm => h2.only m (hsub m hm), ?_⟩⟩
      intro l r e
      refine h2.once l (r ++ ((wsSentBy exWOps).map (WMsg.json .plain)).drop 4) ?_
      have := List.take_append_drop 4 ((wsSentBy exWOps).map (WMsg.json .plain))
      conv => lhs; rw [← this]
      rw [show ((wsSentBy exWOps).map (WMsg.json .plain)).take 4 = _ from e]
      simp
    · exact ⟨tb, ts, h1, h2⟩
  · intro ms hms
    simp only [List.mem_cons, List.not_mem_nil, or_false] at hms
    rcases hms with rfl | rfl
    · exact fun m hm => honly m (hsub m hm)
    · exact honly
  · intro b hb
    obtain ⟨tb, ts, h1, h2, h3⟩ := exW_publishes.carries hn .plain hb
    exact ⟨_, by simp, tb, ts, h1, h2, h3⟩

example : exWFirst.length = 4 ∧ ((wsSentBy exWOps).map (WMsg.json .plain)).length = 5 := by decide +kernel

end Verif
