import Verif.Spec.Fleet
import Verif.Proofs.Kafka
import Verif.Props.Kafka
import Verif.Props.Producer
import Verif.Props.Block
/-! C79: several producers of one topic. -/
namespace Verif
open Spec

variable {C : Codec} {E : ErrSched}

theorem listing_flat {tm : GMap GoStr (List Msg)} {l : List (GoStr × Msg)} (h : Listing tm l) (m : Msg) :
    (∃ t, (t, m) ∈ l) ↔ m ∈ flat tm := by
  obtain ⟨es, hp, e⟩ := h
  subst e
  unfold flat
  simp only [List.mem_flatMap, List.mem_map]
  constructor
  · rintro ⟨t, x, hx, m', hm, e⟩
    simp only [Prod.mk.injEq] at e
    exact ⟨x, hp.mem_iff.mp hx, e.2 ▸ hm⟩
  · rintro ⟨x, hx, hm⟩
    exact ⟨x.1, x, hp.mem_iff.mpr hx, m, hm, rfl⟩

/-- What one event does to what was sent, to the table of sub-batches, and to the topic. -/
theorem sent_mono {kp kp' : KP} {e : KEv} (hs : Spec.KP.Step C E kp e kp') (ht : kp.reorgTopic = []) :
    kp'.reorgTopic = [] ∧ kp.sent <+: kp'.sent := by
  have bundle : ∀ (o : MapOrder) (dp : Producer) (tm : GMap GoStr (List Msg)),
      (KP.emitBundle E o { kp with dp := dp } tm).1.reorgTopic = [] ∧ kp.sent <+: (KP.emitBundle E o { kp with dp := dp } tm).1.sent := by
    intro o dp tm
    obtain ⟨l, _, h1, pre, post, _, h2, _⟩ := emitBundle_handed E o { kp with dp := dp } ht tm
    exact ⟨h1.topic.trans ht, by rw [h2]; exact List.prefix_append _ _⟩
  cases hs with
  | observed => exact ⟨ht, List.prefix_refl _⟩
  | purge => exact ⟨ht, List.prefix_refl _⟩
  | @addBlock o o' n h p w u d b =>
    unfold KP.addBlock
    split
    · exact ⟨ht, List.prefix_refl _⟩
    · generalize Verif.addBlock C o kp.dp n h p w u d b = r
      obtain ⟨dp, r⟩ := r
      cases r with
      | error e => exact ⟨ht, List.prefix_refl _⟩
      | ok tm => exact bundle o' dp tm
  | @sendBatch o o' i d u =>
    unfold KP.sendBatch
    generalize Verif.sendBatch C o kp.dp i d u = r
    obtain ⟨dp, r⟩ := r
    cases r with
    | error e => simp only []; split <;> exact ⟨ht, List.prefix_refl _⟩
    | ok tm => exact bundle o' dp tm

theorem addBlock_dp {o o' : MapOrder} {kp : KP} {a : BlockArgs} (hc : ¬ kp.recentHashes.contains a.hash = true) :
    (kp.addBlock C E o o' a.number a.hash a.parentHash a.weight a.updates a.deletes a.batches).1.dp = (addBlock' C o kp.dp a).1 := by
  unfold KP.addBlock addBlock'
  rw [if_neg hc]
  generalize Verif.addBlock C o kp.dp a.number a.hash a.parentHash a.weight a.updates a.deletes a.batches = r
  obtain ⟨dp, r⟩ := r
  cases r with
  | error e => rfl
  | ok tm => exact (emitBundle_same E o' { kp with dp := dp } tm).dp

theorem sendBatch_dp {o o' : MapOrder} {kp : KP} {i : Hash} {d : List GoStr} {u : GMap GoStr Bytes} :
    (kp.sendBatch C E o o' i d u).1.dp = (Verif.sendBatch C o kp.dp i d u).1 := by
  unfold KP.sendBatch
  generalize Verif.sendBatch C o kp.dp i d u = r
  obtain ⟨dp, r⟩ := r
  cases r with
  | error e => simp only []; split <;> rfl
  | ok tm => exact (emitBundle_same E o' { kp with dp := dp } tm).dp

theorem unrelated_pend {kp kp' : KP} {e : KEv} {ids : Hash → Prop} (hs : Spec.KP.Step C E kp e kp') (hu : Unrelated ids e) {x : Hash}
    (hx : ids x) : kp'.dp.pendingBatches.get? x = kp.dp.pendingBatches.get? x := by
  cases hs with
  | observed => rfl
  | purge => rfl
  | @addBlock o o' n h p w u d b =>
    by_cases hc : kp.recentHashes.contains h = true
    · rw [addBlock_skip hc]
    · have := addBlock_dp (C := C) (E := E) (o := o) (o' := o') (kp := kp) (a := ⟨n, h, p, w, u, d, b⟩) hc
      simp only [] at this
      rw [this]
      rcases addBlock'_pend (C := C) (o := o) (p := kp.dp) (a := ⟨n, h, p, w, u, d, b⟩) x with h1 | ⟨h1, _⟩
      · exact h1
      · exfalso
        obtain ⟨⟨path, y⟩, hm, e⟩ := List.mem_map.mp h1
        simp only [] at e; subst e
        exact hu path y ((GMap.get?_eq_some_iff _).mpr hm) hx
  | @sendBatch o o' i d u =>
    rw [sendBatch_dp, sendBatch_pend]
    split
    · rename_i e; subst e; exact absurd hx hu
    · rfl

/-- What is known after the sub-batches `l` have been sent. -/
structure Completed (C : Codec) (subs : Hash → SubArgs) (ids : Hash → Prop) (kp1 : KP) (l : List Hash) (kp2 : KP) : Prop where
  topic : kp2.reorgTopic = []
  mono : kp1.sent <+: kp2.sent
  open' : ∀ x, ids x → x ∉ l → kp2.dp.pendingBatches.get? x = kp1.dp.pendingBatches.get? x
  sent : ∀ x ∈ l, ∃ o q q' tm, q.pendingBatches.get? x = kp1.dp.pendingBatches.get? x ∧
    sendBatch C o q x (subs x).deletes (subs x).updates = (q', .ok tm) ∧ ∀ m ∈ flat tm, HandedTo kp2 m

theorem completed {subs : Hash → SubArgs} {ids : Hash → Prop} {kp1 kp2 : KP} {l : List Hash} (h : Completes C E subs ids kp1 l kp2)
    (ht : kp1.reorgTopic = []) (hp : ∀ x, ids x → kp1.dp.pendingBatches.get? x ≠ none) : Completed C subs ids kp1 l kp2 := by
  have up : ∀ {a b : KP} {m : Msg}, a.sent <+: b.sent → HandedTo a m → HandedTo b m :=
    fun hp ⟨t, ht⟩ => ⟨t, hp.subset ht⟩
  induction h with
  | nil => exact ⟨ht, List.prefix_refl _, fun _ _ _ => rfl, by simp⟩
  | other _ hs hu ih =>
    obtain ⟨h1, h2⟩ := sent_mono hs ih.topic
    refine ⟨h1, ih.mono.trans h2, fun x hx hl => (unrelated_pend hs hu hx).trans (ih.open' x hx hl), ?_⟩
    intro x hx
    obtain ⟨o, q, q', tm, e1, e2, e3⟩ := ih.sent x hx
    exact ⟨o, q, q', tm, e1, e2, fun m hm => up h2 (e3 m hm)⟩
  | @sub l kp1' kp2 i o o' _ hi hl hcall ih =>
    have hstep : Spec.KP.Step C E kp1' (.sendBatch i (subs i).deletes (subs i).updates) kp2 := by
      have := KP.Step.sendBatch (C := C) (E := E) (kp := kp1') (o := o) (o' := o') (i := i) (d := (subs i).deletes) (u := (subs i).updates)
      rw [hcall] at this; exact this
    obtain ⟨h1, h2⟩ := sent_mono hstep ih.topic
    have hdp : kp2.dp = (Verif.sendBatch C o kp1'.dp i (subs i).deletes (subs i).updates).1 := by
      have := sendBatch_dp (C := C) (E := E) (o := o) (o' := o') (kp := kp1') (i := i) (d := (subs i).deletes) (u := (subs i).updates)
      rw [hcall] at this; exact this
    refine ⟨h1, ih.mono.trans h2, ?_, ?_⟩
    · intro x hx hxl
      simp only [List.mem_append, List.mem_singleton, not_or] at hxl
      rw [hdp, sendBatch_pend, if_neg (fun e => hxl.2 e.symm)]
      exact ih.open' x hx hxl.1
    · intro x hx
      rcases List.mem_append.mp hx with hx | hx
      · obtain ⟨o, q, q', tm, e1, e2, e3⟩ := ih.sent x hx
        exact ⟨o, q, q', tm, e1, e2, fun m hm => up h2 (e3 m hm)⟩
      · simp only [List.mem_singleton] at hx; subst hx
        have hop := ih.open' x hi hl
        have hne : kp1'.dp.pendingBatches.get? x ≠ none := by rw [hop]; exact hp x hi
        unfold KP.sendBatch at hcall
        generalize hr : Verif.sendBatch C o kp1'.dp x (subs x).deletes (subs x).updates = r at hcall
        obtain ⟨dp, r⟩ := r
        cases r with
        | error e =>
          exfalso
          have := (sendBatch_ok_iff (C := C) (o := o) (p := kp1'.dp) (id := x) (d := (subs x).deletes) (u := (subs x).updates)).mpr
            (by rw [Option.isSome_iff_ne_none]; exact hne)
          rw [hr] at this; simp at this
        | ok tm =>
          simp only [] at hcall
          obtain ⟨L, hL, _, pre, post, e1, e2, e3⟩ := emitBundle_handed E o' { kp1' with dp := dp } ih.topic tm
          rw [hcall] at e2 e3
          have hpost : post = [] := e3.mp rfl
          refine ⟨o, kp1'.dp, dp, tm, hop, hr, fun m hm => ?_⟩
          obtain ⟨t, htm⟩ := (listing_flat hL m).mpr hm
          refine ⟨t, ?_⟩
          rw [e2]; rw [e1, hpost] at htm
          simp only [List.append_nil] at htm
          simp [htm]

/-- The sub-batches of a block. -/
def subIds (a : BlockArgs) (x : Hash) : Prop := ∃ path, a.batches.get? path = some x

/-- **C79** and **C46** for one producer: if it has not seen the header of a block and its calls for the block all return nil, then all
messages of the block have been handed over. -/
theorem C79_sends_partial {dp : Producer} {es : List KEv} {kp kp1 kp2 : KP} (hr : Spec.KP.Run C E (newKP dp) es kp) {a : BlockArgs}
    {subs : Hash → SubArgs} {o o' : MapOrder} {l : List Hash} (hs : ¬ SeenLately 4096 (observedOf es) a.hash)
    (h1 : kp.addBlock C E o o' a.number a.hash a.parentHash a.weight a.updates a.deletes a.batches = (kp1, none))
    (h2 : Completes C E subs (subIds a) kp1 l kp2) (hl : ∀ x, subIds a x → x ∈ l) :
    ∃ ms, SentBy C kp.dp.schema a subs ms ∧ ∀ m ∈ ms, HandedTo kp2 m := by
  have hc := caches_run hr
  have hn : ¬ kp.recentHashes.contains a.hash = true := fun x => hs (hc.seen.mp x)
  have hdp := addBlock_dp (C := C) (E := E) (o := o) (o' := o') (kp := kp) (a := a) hn
  rw [h1] at hdp
  simp only [] at hdp
  unfold KP.addBlock at h1
  rw [if_neg hn] at h1
  change (match addBlock' C o kp.dp a with
    | (dp, .error e) => ({ kp with dp := dp }, some e)
    | (dp, .ok msgs) => KP.emitBundle E o' { kp with dp := dp } msgs) = _ at h1
  generalize hb : addBlock' C o kp.dp a = r at h1 hdp
  obtain ⟨dp', r⟩ := r
  cases r with
  | error e => simp at h1
  | ok tm =>
    simp only [] at h1 hdp
    obtain ⟨L, hL, hsame, pre, post, e1, e2, e3⟩ := emitBundle_handed E o' { kp with dp := dp' } hc.topic tm
    rw [h1] at hsame e2 e3
    have hpost : post = [] := e3.mp rfl
    obtain ⟨b, -, -, -, -, -, -, -, -, hreg, -⟩ := addBlock_ok hb
    have hpend : ∀ x, subIds a x → kp1.dp.pendingBatches.get? x ≠ none := by
      rintro x ⟨path, hx⟩
      obtain ⟨k, _, hk⟩ := hreg x (List.mem_map.mpr ⟨(path, x), (GMap.get?_eq_some_iff _).mp hx, rfl⟩)
      rw [hdp, hk]; simp
    have hC2 := completed h2 (hsame.topic.trans hc.topic) hpend
    have ex : ∀ x, ∃ sent : List Msg, x ∈ l → ∃ o q q' tm, q.pendingBatches.get? x = kp1.dp.pendingBatches.get? x ∧
        sendBatch C o q x (subs x).deletes (subs x).updates = (q', .ok tm) ∧ sent = flat tm ∧ ∀ m ∈ flat tm, HandedTo kp2 m := by
      intro x
      by_cases hx : x ∈ l
      · obtain ⟨o, q, q', tm, f1, f2, f3⟩ := hC2.sent x hx
        exact ⟨flat tm, fun _ => ⟨o, q, q', tm, f1, f2, rfl, f3⟩⟩
      · exact ⟨[], fun h => absurd h hx⟩
    let sent : Hash → List Msg := fun x => Classical.choose (ex x)
    have hsent : ∀ x ∈ l, _ := fun x hx => Classical.choose_spec (ex x) hx
    refine ⟨flat tm ++ (a.batches.entries.map Prod.snd).flatMap sent, ⟨o, kp.dp, dp', tm, sent, rfl, hb, ?_, ?_⟩, ?_⟩
    · intro path id hid
      obtain ⟨o2, q, q', tm', f1, f2, f3, _⟩ := hsent id (hl id ⟨path, hid⟩)
      exact ⟨o2, q, q', tm', by rw [f1, hdp], f2, f3⟩
    · intro m
      simp only [List.mem_append, List.mem_flatMap, List.mem_map]
      refine or_congr Iff.rfl ⟨?_, ?_⟩
      · rintro ⟨x, ⟨⟨path, y⟩, hm, e⟩, hx⟩
        simp only [] at e; subst e
        exact ⟨path, y, (GMap.get?_eq_some_iff _).mpr hm, hx⟩
      · rintro ⟨path, id, hid, hx⟩
        exact ⟨id, ⟨(path, id), (GMap.get?_eq_some_iff _).mp hid, rfl⟩, hx⟩
    · intro m hm
      rcases List.mem_append.mp hm with hm | hm
      · obtain ⟨t, htm⟩ := (listing_flat hL m).mpr hm
        refine ⟨t, hC2.mono.subset ?_⟩
        rw [e2]; rw [e1, hpost, List.append_nil] at htm
        simp [htm]
      · obtain ⟨x, hx, hm⟩ := List.mem_flatMap.mp hm
        obtain ⟨⟨path, y⟩, hy, e⟩ := List.mem_map.mp hx
        simp only [] at e; subst e
        obtain ⟨o2, q, q', tm', _, _, f3, f4⟩ := hsent y (hl y ⟨path, (GMap.get?_eq_some_iff _).mpr hy⟩)
        have hm' : m ∈ flat tm' := f3 ▸ hm
        exact f4 m hm'

/-! ## Several producers -/

theorem announces_keyOf {C : Codec} {h : Hash} {i : MsgId} {m : Msg} (hk : m.key = keyOf C i) (ha : Announces h m) : i = .batch h := by
  unfold Announces at ha
  rw [hk, keyOf_eq] at ha
  cases i with
  | batch b =>
    simp only [watchKey, MsgId.type, show ((0 : UInt8) = BatchType) = True by simp [BatchType], if_true] at ha
    split at ha
    · simp at ha
    · simp only [Except.ok.injEq, WatchEv.hash.injEq] at ha
      have := keyOf_hash C (.batch b)
      rw [keyOf_eq] at this
      simp only [List.drop_succ_cons, List.drop_zero] at this
      rw [this] at ha
      rw [← ha]; rfl
  | _ => simp [watchKey, MsgId.type, BatchType, PingType] at ha

/-- What an event adds to what was sent does not announce a block other than the one that is added. -/
theorem step_announces (hC : C.Lawful) {kp kp' : KP} {e : KEv} (hs : Spec.KP.Step C E kp e kp') (ht : kp.reorgTopic = []) {t : GoStr} {m : Msg}
    (hm : (t, m) ∈ kp'.sent) {h : Hash} (ha : Announces h m) : (t, m) ∈ kp.sent ∨ ∃ n p w u d b, e = .addBlock n h p w u d b := by
  have bundle : ∀ (o : MapOrder) (dp : Producer) (tm : GMap GoStr (List Msg)),
      (t, m) ∈ (KP.emitBundle E o { kp with dp := dp } tm).1.sent → (t, m) ∈ kp.sent ∨ m ∈ flat tm := by
    intro o dp tm hm
    obtain ⟨l, hl, _, pre, post, h1, h2, _⟩ := emitBundle_handed E o { kp with dp := dp } ht tm
    rw [h2] at hm
    rcases List.mem_append.mp hm with hm | hm
    · exact .inl hm
    · exact .inr ((listing_flat hl m).mp ⟨t, by rw [h1]; simp [hm]⟩)
  cases hs with
  | observed => exact .inl hm
  | purge => exact .inl hm
  | @addBlock o o' n h' p w u d b =>
    unfold KP.addBlock at hm
    split at hm
    · exact .inl hm
    · generalize hr : Verif.addBlock C o kp.dp n h' p w u d b = r at hm
      obtain ⟨dp, r⟩ := r
      cases r with
      | error e => exact .inl hm
      | ok tm =>
        rcases bundle o' dp tm hm with hm | hm
        · exact .inl hm
        · obtain ⟨i, _, hi, hk⟩ := (C25_addBlock_keys hC (a := ⟨n, h', p, w, u, d, b⟩) hr).2 m hm
          have := announces_keyOf hk ha
          subst this
          simp only [MsgId.block] at hi
          subst hi
          exact .inr ⟨n, p, w, u, d, b, rfl⟩
  | @sendBatch o o' i d u =>
    unfold KP.sendBatch at hm
    generalize hr : Verif.sendBatch C o kp.dp i d u = r at hm
    obtain ⟨dp, r⟩ := r
    cases r with
    | error e => simp only [] at hm; split at hm <;> exact .inl hm
    | ok tm =>
      rcases bundle o' dp tm hm with hm | hm
      · exact .inl hm
      · exfalso
        cases hp : kp.dp.pendingBatches.get? i with
        | none => simp [sendBatch, hp] at hr
        | some bi =>
          obtain ⟨ks, _, _, recs, _, hx⟩ := C21_sendBatch_exact (C := C) (o := o) hp d u
          rw [hr] at hx
          simp only [Except.ok.injEq] at hx
          subst hx
          have hk : ∃ j : MsgId, m.key = keyOf C j ∧ ∀ h, j ≠ .batch h := by
            have : flat (GMap.empty.insert bi.topic (⟨keyOf C (.subHeader bi.block i), C.encInt recs.length⟩ ::
                recs.mapIdx (fun k r => (⟨keyOf C (.subMsg bi.block i k), C.encSub r⟩ : Msg)))) =
                ⟨keyOf C (.subHeader bi.block i), C.encInt recs.length⟩ ::
                recs.mapIdx (fun k r => (⟨keyOf C (.subMsg bi.block i k), C.encSub r⟩ : Msg)) := by
              simp [flat, GMap.insert, GMap.empty, GMap.put]
            rw [this] at hm
            rcases List.mem_cons.mp hm with rfl | hm
            · exact ⟨.subHeader bi.block i, rfl, fun h => by simp⟩
            · obtain ⟨k, hk, e⟩ := List.mem_mapIdx.mp hm
              exact ⟨.subMsg bi.block i k, by rw [← e], fun h => by simp⟩
          obtain ⟨j, hk, hne⟩ := hk
          exact hne h (announces_keyOf hk ha)

/-- The events of one producer. -/
def eventsOf (i : Nat) (es : List (Nat × KEv)) : List KEv := (es.filter (fun e => e.1 = i)).map Prod.snd

theorem fleet_run {E : Nat → ErrSched} {dps : Nat → Producer} {es : List (Nat × KEv)} {s : Nat → KP}
    (h : Fleet C E (fun i => newKP (dps i)) es s) (i : Nat) : Spec.KP.Run C (E i) (newKP (dps i)) (eventsOf i es) (s i) := by
  induction h with
  | nil => exact .nil
  | @snoc es s j e kp _ hs _ ih =>
    unfold eventsOf at *
    rw [List.filter_append, List.map_append]
    by_cases hij : i = j
    · subst hij
      simp only [if_true, decide_true, List.filter_cons_of_pos, List.filter_nil, List.map_cons, List.map_nil]
      exact .snoc ih hs
    · have : ¬ j = i := fun e => hij e.symm
      simp only [hij, if_false, this, decide_false, Bool.false_eq_true, not_false_eq_true, List.filter_cons_of_neg, List.filter_nil, List.map_nil, List.append_nil]
      exact ih

theorem given_snoc {h : Hash} {es : List (Nat × KEv)} (e : Nat × KEv) (hg : Given h es) : Given h (es ++ [e]) := by
  obtain ⟨i, n, p, w, u, d, b, hm⟩ := hg
  exact ⟨i, n, p, w, u, d, b, by simp [hm]⟩

theorem fleet_announced (hC : C.Lawful) {E : Nat → ErrSched} {dps : Nat → Producer} {es : List (Nat × KEv)} {s : Nat → KP}
    (h : Fleet C E (fun i => newKP (dps i)) es s) {x : Hash} :
    (∀ j t m, (t, m) ∈ (s j).sent → Announces x m → Given x es) ∧ (∀ j, (j, .observed x) ∈ es → Given x es) := by
  induction h with
  | nil => exact ⟨fun j t m hm => by simp [newKP] at hm, fun j hm => by simp at hm⟩
  | @snoc es s i e kp hf hs ho ih =>
    constructor
    · intro j t m hm ha
      simp only [] at hm
      by_cases hij : j = i
      · rw [if_pos hij] at hm
        rcases step_announces hC hs (caches_run (fleet_run hf i)).topic hm ha with h1 | ⟨n, p, w, u, d, b, h1⟩
        · exact given_snoc _ (ih.1 i t m h1 ha)
        · exact ⟨i, n, p, w, u, d, b, by simp [h1]⟩
      · rw [if_neg hij] at hm
        exact given_snoc _ (ih.1 j t m hm ha)
    · intro j hj
      rcases List.mem_append.mp hj with hj | hj
      · exact given_snoc _ (ih.2 j hj)
      · simp only [List.mem_singleton, Prod.mk.injEq] at hj
        obtain ⟨k, t, m, hm, ha⟩ := ho x hj.2.symm
        exact given_snoc _ (ih.1 k t m hm ha)

theorem mem_observedOf {es : List KEv} {x : Hash} (h : x ∈ observedOf es) : .observed x ∈ es := by
  induction es using snoc_induction with
  | nil => simp [observedOf] at h
  | snoc es e ih =>
    rw [observedOf_snoc] at h
    cases e with
    | observed y =>
      simp only [List.mem_append, List.mem_singleton] at h ⊢
      rcases h with h | h
      · exact .inl (ih h)
      · exact .inr (by rw [h])
    | purge => simp at h
    | addBlock => exact List.mem_append_left _ (ih h)
    | sendBatch => exact List.mem_append_left _ (ih h)

/-- **C79**, the part that holds: the producer that is given the block first does not skip it; if its calls for the block all return
nil, every message of the block has been handed over. So the block is complete unless that one producer fails. -/
theorem C79_first_partial (hC : C.Lawful) {E : Nat → ErrSched} {dps : Nat → Producer} {es : List (Nat × KEv)} {s : Nat → KP}
    (h : Fleet C E (fun i => newKP (dps i)) es s) {a : BlockArgs} (hg : ¬ Given a.hash es) {i : Nat} {subs : Hash → SubArgs}
    {o o' : MapOrder} {l : List Hash} {kp1 kp2 : KP}
    (h1 : (s i).addBlock C (E i) o o' a.number a.hash a.parentHash a.weight a.updates a.deletes a.batches = (kp1, none))
    (h2 : Completes C (E i) subs (subIds a) kp1 l kp2) (hl : ∀ x, subIds a x → x ∈ l) :
    ∃ ms, SentBy C (s i).dp.schema a subs ms ∧ ∀ m ∈ ms, HandedTo kp2 m := by
  refine C79_sends_partial (fleet_run h i) ?_ h1 h2 hl
  rintro ⟨l1, l2, e, _⟩
  have : a.hash ∈ observedOf (eventsOf i es) := by rw [e]; simp
  have := mem_observedOf this
  unfold eventsOf at this
  obtain ⟨⟨j, ev⟩, hj, e⟩ := List.mem_map.mp this
  simp only [] at e; subst e
  exact hg ((fleet_announced hC h).2 j (List.mem_filter.mp hj).1)

/-! ## What goes wrong -/

/-- Every block with a sub-batch has a message that is not a header. -/
theorem sentBy_sub {schema : List RegexpPair} {a : BlockArgs} {subs : Hash → SubArgs} {ms : List Msg} (h : SentBy C schema a subs ms)
    {path : GoStr} {id : Hash} (hid : a.batches.get? path = some id) : ∃ m ∈ ms, m.key.head? = some SubBatchHeaderType := by
  obtain ⟨o, p, p', tm, sent, -, -, hsub, hms⟩ := h
  obtain ⟨o', q, q', tm', -, h2, h3⟩ := hsub path id hid
  obtain ⟨bi, hbi⟩ := Option.isSome_iff_exists.mp ((sendBatch_ok_iff (C := C) (o := o') (p := q) (id := id) (d := (subs id).deletes)
    (u := (subs id).updates)).mp ⟨tm', by rw [h2]⟩)
  obtain ⟨ks, _, _, recs, _, hx⟩ := C21_sendBatch_exact (C := C) (o := o') hbi (subs id).deletes (subs id).updates
  rw [h2] at hx
  simp only [Except.ok.injEq] at hx
  refine ⟨⟨keyOf C (.subHeader bi.block id), C.encInt recs.length⟩, (hms _).mpr (.inr ⟨path, id, hid, ?_⟩), ?_⟩
  · rw [h3, hx]; simp [flat, GMap.insert, GMap.empty, GMap.put]
  · simp only [keyOf_eq]; rfl

theorem produced_sub {schema : List RegexpPair} {a : BlockArgs} {subs : Hash → SubArgs} {ms : List Msg} (h : Produced C schema a subs ms)
    {path : GoStr} {id : Hash} (hid : a.batches.get? path = some id) : ∃ m ∈ ms, m.key.head? = some SubBatchHeaderType := by
  obtain ⟨m0, hm0⟩ := List.exists_mem_of_ne_nil _ h.1
  obtain ⟨_, _, _, ms', hs, hsent, _, hin⟩ := h.2 m0 hm0
  obtain ⟨m, hm, e⟩ := sentBy_sub hsent (path := path) (id := id) (by rw [hs.batches]; exact hid)
  exact ⟨m, hin m hm, e⟩

/-- The block of the examples as an event. -/
def exAdd : KEv := .addBlock exBlock.number exBlock.hash exBlock.parentHash exBlock.weight exBlock.updates exBlock.deletes exBlock.batches

/-- Producer 0 gets an error after the first message. -/
def exErrs : Nat → ErrSched := fun i t => if i = 0 ∧ t = 1 then some (.other 0) else none

/-- Producer 0 after its `AddBlock`. -/
def exKP0 : KP := ((newKP exProducer).addBlock Avro.codec (exErrs 0) .plain .plain exBlock.number exBlock.hash exBlock.parentHash
  exBlock.weight exBlock.updates exBlock.deletes exBlock.batches).1

theorem exKP0_sent : ∃ t m, exKP0.sent = [(t, m)] ∧ Announces (exHash 1) m := by
  have h1 : exKP0.sent.length = 1 := by decide +kernel
  match h : exKP0.sent with
  | [] => rw [h] at h1; simp at h1
  | [(t, m)] =>
    have h2 : (exKP0.sent.map fun e => e.2.key) = [keyOf Avro.codec (.batch (exHash 1))] := by decide +kernel
    rw [h] at h2
    simp only [List.map_cons, List.map_nil, List.cons.injEq, and_true] at h2
    refine ⟨t, m, rfl, ?_⟩
    unfold Announces
    rw [h2]
    decide +kernel
  | _ :: _ :: _ => rw [h] at h1; simp at h1

/-- **C79** refuted: producer 0 hands over the header and then gets an error; producer 1 has seen the header, and all its calls return
nil without sending anything. The sub-batch of the block is sent by nobody. -/
theorem C79_refuted : ∃ (s : Nat → KP) (es : List (Nat × KEv)) (kp1 kp2 : KP) (l : List Hash),
    Fleet Avro.codec exErrs (fun _ => newKP exProducer) es s ∧
    (s 1).addBlock Avro.codec (exErrs 1) .plain .plain exBlock.number exBlock.hash exBlock.parentHash exBlock.weight exBlock.updates
      exBlock.deletes exBlock.batches = (kp1, none) ∧
    Completes Avro.codec (exErrs 1) exSubs (subIds exBlock) kp1 l kp2 ∧ (∀ x, subIds exBlock x → x ∈ l) ∧
    ∀ ms, Produced Avro.codec exProducer.schema exBlock exSubs ms → ∃ m ∈ ms, ¬ HandedTo (s 0) m ∧ ¬ HandedTo kp2 m := by
  obtain ⟨t, m0, hsent, hann⟩ := exKP0_sent
  let s1 : Nat → KP := fun j => if j = 0 then exKP0 else newKP exProducer
  let s2 : Nat → KP := fun j => if j = 1 then (newKP exProducer).observe (exHash 1) else s1 j
  have hf : Fleet Avro.codec exErrs (fun _ => newKP exProducer) ([(0, exAdd)] ++ [(1, .observed (exHash 1))]) s2 := by
    refine .snoc (.snoc (es := []) .nil (KP.Step.addBlock (o := .plain) (o' := .plain)) ?_) .observed ?_
    · intro h e; unfold exAdd at e; simp at e
    · intro h e
      simp only [KEv.observed.injEq] at e
      subst e
      refine ⟨0, t, m0, ?_, hann⟩
      show (t, m0) ∈ exKP0.sent
      rw [hsent]; simp
  have hc : ((newKP exProducer).observe (exHash 1)).recentHashes.contains exBlock.hash = true := by decide +kernel
  have hb1 : ((newKP exProducer).observe (exHash 1)).addBlock Avro.codec (exErrs 1) .plain .plain exBlock.number exBlock.hash
    exBlock.parentHash exBlock.weight exBlock.updates exBlock.deletes exBlock.batches = _ := addBlock_skip hc
  let kp1 : KP := { ((newKP exProducer).observe (exHash 1)) with
    skipBatches := ((newKP exProducer).observe (exHash 1)).skipBatches.addAll ((MapOrder.plain.ord 1 exBlock.batches.entries).map Prod.snd) }
  have hsub : kp1.sendBatch Avro.codec (exErrs 1) .plain .plain (exHash 9) (exSubs (exHash 9)).deletes (exSubs (exHash 9)).updates = (kp1, none) := by
    have hg : kp1.dp.pendingBatches.get? (exHash 9) = none := by decide +kernel
    have hk : kp1.skipBatches.contains (exHash 9) = true := by decide +kernel
    unfold KP.sendBatch Verif.sendBatch
    simp only [hg, hk, and_self, if_true]
  refine ⟨s2, _, kp1, kp1, [exHash 9], hf, hb1, .sub (i := exHash 9) (l := []) (o := .plain) (o' := .plain) .nil ⟨str "state/sub", by decide +kernel⟩ (by simp) hsub, ?_, ?_⟩
  · rintro x ⟨path, hx⟩
    simp only [exBlock] at hx
    rcases get_insert_cases hx with ⟨_, h⟩ | h
    · simp [h]
    · simp at h
  · intro ms hp
    obtain ⟨m, hm, hk⟩ := produced_sub hp (path := str "state/sub") (id := exHash 9) (by decide +kernel)
    refine ⟨m, hm, ?_, ?_⟩
    · rintro ⟨t', ht⟩
      have : (t', m) ∈ exKP0.sent := ht
      rw [hsent] at this
      simp only [List.mem_singleton, Prod.mk.injEq] at this
      obtain ⟨_, rfl⟩ := this
      unfold Announces watchKey at hann
      split at hann
      · simp at hann
      · rename_i k rest e
        rw [e] at hk
        simp only [List.head?_cons, Option.some.injEq] at hk
        subst hk
        simp [SubBatchHeaderType, BatchType, PingType] at hann
    · rintro ⟨t', ht⟩
      simp [kp1, KP.observe, newKP] at ht

/-- The hypotheses of `C79_first_partial` are met: without errors, producer 0 sends the block and its sub-batch. -/
example : ∃ kp1 kp2, Fleet Avro.codec (fun _ _ => none) (fun _ => newKP exProducer) [] (fun _ => newKP exProducer) ∧ ¬ Given exBlock.hash [] ∧
    (newKP exProducer).addBlock Avro.codec (fun _ => none) .plain .plain exBlock.number exBlock.hash exBlock.parentHash exBlock.weight
      exBlock.updates exBlock.deletes exBlock.batches = (kp1, none) ∧
    Completes Avro.codec (fun _ => none) exSubs (subIds exBlock) kp1 [exHash 9] kp2 := by
  generalize hr : (newKP exProducer).addBlock Avro.codec (fun _ => none) .plain .plain exBlock.number exBlock.hash exBlock.parentHash exBlock.weight
      exBlock.updates exBlock.deletes exBlock.batches = r
  have h1 : r.2 = none := by rw [← hr]; decide +kernel
  obtain ⟨kp1, e⟩ := r
  simp only [] at h1; subst h1
  refine ⟨kp1, ?_⟩
  have hp : kp1.dp.pendingBatches.get? (exHash 9) = some ⟨str "s", exHash 1⟩ := by
    have : ((newKP exProducer).addBlock Avro.codec (fun _ => none) .plain .plain exBlock.number exBlock.hash exBlock.parentHash exBlock.weight
      exBlock.updates exBlock.deletes exBlock.batches).1.dp.pendingBatches.get? (exHash 9) = some ⟨str "s", exHash 1⟩ := by decide +kernel
    rw [hr] at this; exact this
  obtain ⟨ks, _, _, recs, _, hx⟩ := C21_sendBatch_exact (C := Avro.codec) (o := .plain) hp (exSubs (exHash 9)).deletes (exSubs (exHash 9)).updates
  have ht : kp1.reorgTopic = [] := by
    have := (sent_mono (C := Avro.codec) (E := fun _ => none) (KP.Step.addBlock (kp := newKP exProducer) (o := .plain) (o' := .plain) (n := exBlock.number) (h := exBlock.hash)
      (p := exBlock.parentHash) (w := exBlock.weight) (u := exBlock.updates) (d := exBlock.deletes) (b := exBlock.batches)) rfl).1
    rw [hr] at this; exact this
  have hall : ∀ (ms : List Msg) (kp : KP) (t : GoStr), (KP.emitAll (fun _ => none) kp t ms).2 = none := by
    intro ms
    induction ms with
    | nil => intro kp t; rfl
    | cons m ms ih => intro kp t; simp only [KP.emitAll, KP.emit]; exact ih _ _
  have hsub : (kp1.sendBatch Avro.codec (fun _ => none) .plain .plain (exHash 9) (exSubs (exHash 9)).deletes (exSubs (exHash 9)).updates).2 = none := by
    unfold KP.sendBatch
    generalize Verif.sendBatch Avro.codec .plain kp1.dp (exHash 9) (exSubs (exHash 9)).deletes (exSubs (exHash 9)).updates = r at hx
    obtain ⟨dp, r⟩ := r
    simp only [] at hx; subst hx
    simp only [KP.emitBundle]
    generalize MapOrder.plain.ord 0 _ = es
    have : ∀ (es : List (GoStr × List Msg)) (kp : KP), (KP.emitTopics (fun _ => none) kp es).2 = none := by
      intro es
      induction es with
      | nil => intro kp; rfl
      | cons x es ih =>
        intro kp
        unfold KP.emitTopics
        have h := hall x.2 kp (if kp.reorgTopic ≠ [] then kp.reorgTopic else x.1)
        generalize KP.emitAll (fun _ => none) kp (if kp.reorgTopic ≠ [] then kp.reorgTopic else x.1) x.2 = r at h ⊢
        obtain ⟨kp', e⟩ := r
        simp only [] at h; subst h
        exact ih kp'
    exact this _ _
  generalize hs : kp1.sendBatch Avro.codec (fun _ => none) .plain .plain (exHash 9) (exSubs (exHash 9)).deletes (exSubs (exHash 9)).updates = r at hsub
  obtain ⟨kp2, e⟩ := r
  simp only [] at hsub; subst hsub
  exact ⟨kp2, .nil, by rintro ⟨_, _, _, _, _, _, _, h⟩; simp at h, rfl,
    .sub (l := []) .nil ⟨str "state/sub", by decide +kernel⟩ (by simp) hs⟩

end Verif
