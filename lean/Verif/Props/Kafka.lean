import Verif.Proofs.Kafka
import Verif.Props.ConsumerEx
/-!
# C08, C45 to C47, C58 to C63: the Kafka transport
-/
namespace Verif
open Spec

deriving instance DecidableEq for Except

/-! ## C08: resumption strings -/

/-- **C08**: what the Kafka consumer reads from a block's resumption string is what was recorded, for every iteration order. -/
theorem C08_roundtrip {o : MapOrder} {pb : PB} (h : Writable pb) :
    ∃ m, parseResumption (pb.resumptionString o) = .ok m ∧ ∀ source, m.get? source = recorded pb source :=
  resumption_roundtrip h

/-- A block with two own sources, a default that is overridden and one that is not. -/
def exResumable : PB := { newPB exMP (exHash 1) ⟨5, [], exHash 2, GMap.empty⟩ ⟨[], [], 7, str "a:0"⟩ with
  resumption := (GMap.empty.insert (str "a:0") 7).insert (str "b:1") (-3)
  resumptionDefaults := (GMap.empty.insert (str "a:0") 9).insert (str "c:12") 9223372036854775807 }

theorem writable_of {pb : PB} (h : ∀ e ∈ pb.resumption.entries ++ pb.resumptionDefaults.entries, CleanName e.1 ∧ InInt64 e.2) :
    Writable pb := by
  rintro k v (hk | hk)
  · exact h (k, v) (List.mem_append_left _ ((GMap.get?_eq_some_iff _).mp hk))
  · exact h (k, v) (List.mem_append_right _ ((GMap.get?_eq_some_iff _).mp hk))

example : Writable exResumable := writable_of (by decide)
example : exResumable.resumptionString .rev = str "b:1=-3;a:0=7;c:12=9223372036854775807" := by decide +kernel

/-- **C08**, numbers that are not offsets: a token is read exactly when its number fits 64 bits. -/
theorem C08_range {source : GoStr} (hs : CleanName source) (i : Int) :
    (∃ m, parseResumption (source ++ str "=" ++ intDigits i) = .ok m) ↔ InInt64 i := by
  have e : source ++ str "=" ++ intDigits i = source ++ 61 :: intDigits i := by
    have : str "=" = [61] := by decide +kernel
    rw [this, List.append_assoc]; rfl
  have h59 : (59 : UInt8) ∉ source ++ 61 :: intDigits i := by
    have := (intDigits_clean i).2.1
    have := hs.1
    simp [*]
  rw [e]
  unfold parseResumption
  rw [splitOn_none h59]
  simp only [List.foldlM_cons, List.foldlM_nil]
  unfold parseToken
  rw [splitOn_append hs.2, splitOn_none (intDigits_clean i).2.2]
  simp only [atoi_digits]
  unfold InInt64 minInt64 maxInt64
  constructor
  · rintro ⟨m, h⟩
    split at h
    · cases h
    · rename_i h'
      split at h'
      · omega
      · cases h'
  · intro h
    rw [if_pos (by omega)]
    exact ⟨_, rfl⟩

example : CleanName (str "blocks:0") ∧ ¬ InInt64 9223372036854775808 := by decide +kernel

/-! ## C45, C46: the producer -/

variable {C : Codec} {E : ErrSched} {o o' : MapOrder} {dp : Producer} {es : List KEv} {kp : KP}

/-- **C45**: a block whose header was seen lately is not sent, and that is not an error. -/
theorem C45_skip (hr : Spec.KP.Run C E (newKP dp) es kp) {n : Int} {h p : Hash} {w : Int} {u : GMap GoStr Bytes}
    {d : GMap GoStr Unit} {b : GMap GoStr Hash} (hs : SeenLately 4096 (observedOf es) h) :
    (kp.addBlock C E o o' n h p w u d b).2 = none ∧ (kp.addBlock C E o o' n h p w u d b).1.sent = kp.sent ∧
    (kp.addBlock C E o o' n h p w u d b).1.dp = kp.dp := by
  rw [addBlock_skip ((caches_run hr).seen.mpr hs)]
  exact ⟨rfl, rfl, rfl⟩

/-- **C45**, **C46**: any other block is sent: on success all its messages, each once, in the order of its topic; on an error of
the transport an initial part of them; if the delivery layer refuses the block, nothing. -/
theorem C45_C46_send (hr : Spec.KP.Run C E (newKP dp) es kp) {n : Int} {h p : Hash} {w : Int} {u : GMap GoStr Bytes}
    {d : GMap GoStr Unit} {b : GMap GoStr Hash} (hs : ¬ SeenLately 4096 (observedOf es) h) :
    let r := kp.addBlock C E o o' n h p w u d b
    match Verif.addBlock C o kp.dp n h p w u d b with
    | (dp', .error e) => r.2 = some e ∧ r.1.sent = kp.sent ∧ r.1.dp = dp'
    | (dp', .ok tm) => r.1.dp = dp' ∧ ∃ l pre post, Listing tm l ∧ l = pre ++ post ∧ r.1.sent = kp.sent ++ pre ∧ (r.2 = none ↔ post = []) := by
  have hc := caches_run hr
  have hn : ¬ kp.recentHashes.contains h = true := fun x => hs (hc.seen.mp x)
  unfold KP.addBlock
  simp only [if_neg hn]
  generalize Verif.addBlock C o kp.dp n h p w u d b = r
  obtain ⟨dp', r⟩ := r
  cases r with
  | error e => exact ⟨rfl, rfl, rfl⟩
  | ok tm =>
    obtain ⟨l, hl, hs, pre, post, h1, h2, h3⟩ := emitBundle_handed E o' { kp with dp := dp' } hc.topic tm
    exact ⟨hs.dp, l, pre, post, hl, h1, h2, h3⟩

/-- **C45**, **C46**, sub-batches: a sub-batch the delivery layer does not expect is passed over silently if its id is among the
last skipped ones, and refused otherwise; nothing is sent. An expected one is sent like a block. -/
theorem C45_C46_sub (hr : Spec.KP.Run C E (newKP dp) es kp) : ∃ ids, Skipped es ids ∧ ∀ (i : Hash) (d : List GoStr) (u : GMap GoStr Bytes),
    let r := kp.sendBatch C E o o' i d u
    (kp.dp.pendingBatches.get? i = none → r.1.sent = kp.sent ∧
      (SeenLately 1024 ids i → r.2 = none) ∧ (¬ SeenLately 1024 ids i → r.2 = some .unknownBatch)) ∧
    (kp.dp.pendingBatches.get? i ≠ none → ∃ dp' tm, Verif.sendBatch C o kp.dp i d u = (dp', .ok tm) ∧
      ∃ l pre post, Listing tm l ∧ l = pre ++ post ∧ r.1.sent = kp.sent ++ pre ∧ (r.2 = none ↔ post = [])) := by
  have hc := caches_run hr
  obtain ⟨ids, hids, hskip⟩ := hc.skip
  refine ⟨ids, hids, fun i d u => ⟨?_, ?_⟩⟩
  · intro hg
    have hk : kp.skipBatches.contains i = true ↔ SeenLately 1024 ids i := by rw [LRU.contains_iff, hskip, seenLately_iff]
    unfold KP.sendBatch Verif.sendBatch
    simp only [hg, true_and]
    by_cases hi : kp.skipBatches.contains i = true
    · simp only [hi, if_true]; exact ⟨trivial, fun _ => trivial, fun h => absurd (hk.mp hi) h⟩
    · simp only [hi]; exact ⟨rfl, fun h => absurd (hk.mpr h) hi, fun _ => rfl⟩
  · intro hg
    obtain ⟨bi, hbi⟩ := Option.ne_none_iff_exists'.mp hg
    unfold KP.sendBatch
    have : ∃ dp' tm, Verif.sendBatch C o kp.dp i d u = (dp', .ok tm) := by
      unfold Verif.sendBatch; rw [hbi]; exact ⟨_, _, rfl⟩
    obtain ⟨dp', tm, e⟩ := this
    rw [e]
    obtain ⟨l, hl, hs, pre, post, h1, h2, h3⟩ := emitBundle_handed E o' { kp with dp := dp' } hc.topic tm
    exact ⟨dp', tm, rfl, l, pre, post, hl, h1, h2, h3⟩

/-- **C45**: right after a purge no block counts as seen. -/
theorem C45_purged (es : List KEv) (h : Hash) : ¬ SeenLately 4096 (observedOf (es ++ [.purge])) h := by
  rw [observedOf_snoc]
  rintro ⟨l1, l2, e, _⟩
  simp at e

/-- C45: `exHash 1` is seen lately after two observations; `exHash 3` is not. -/
example : SeenLately 4096 (observedOf [.observed (exHash 1), .observed (exHash 2)]) (exHash 1) ∧
    ¬ SeenLately 4096 (observedOf [.observed (exHash 1), .observed (exHash 2)]) (exHash 3) := by
  rw [seenLately_iff, seenLately_iff]
  decide +kernel

/-- With a window of one the second observation pushes the first out. -/
example : ¬ SeenLately 1 (observedOf [.observed (exHash 1), .observed (exHash 2)]) (exHash 1) := by
  rw [seenLately_iff]; decide +kernel

/-- A history with a skipped block. -/
example : ∃ kp, Spec.KP.Run Avro.codec (fun _ => none) (newKP exProducer)
    [.observed (exHash 1), .addBlock 5 (exHash 1) (exHash 2) 300 exBlock.updates exBlock.deletes exBlock.batches] kp ∧
    (kp.sent = [] ∧ kp.skipBatches.contains (exHash 9) = true) :=
  ⟨_, .snoc (es := [.observed (exHash 1)]) (.snoc (es := []) .nil .observed) (.addBlock (o := .plain) (o' := .plain)), by decide +kernel⟩

/-! ## C47: start offsets -/

/-- **C47**: where a partition is consumed from: `offset` minus rollback when there is a recorded offset of at least the rollback;
otherwise the oldest message, or with an empty start hash one before the newest. When the broker refuses, the undiminished
offset. -/
theorem C47_offsets (B : Broker) (kc : KC) (topic : GoStr) (part : Int) :
    (∀ r, kc.resumption.get? (sourceOf topic part) = some r → kc.rollback ≤ r → InInt64 (r - kc.rollback) →
      kc.start B topic part = if B.consume topic part (r - kc.rollback) then .ok (r - kc.rollback)
        else if B.consume topic part r then .ok r else .error (.other 0)) ∧
    ((∀ r, kc.resumption.get? (sourceOf topic part) = some r → r < kc.rollback) →
      (kc.startHash ≠ Hash.zero ∨ kc.rollback < 0 → kc.start B topic part =
        if B.consume topic part OffsetOldest then .ok OffsetOldest else .error (.other 0)) ∧
      (kc.startHash = Hash.zero → 0 ≤ kc.rollback → ∀ n, B.getOffset topic part OffsetNewest = some n → InInt64 (n - 1) →
        kc.start B topic part = if B.consume topic part (n - 1) then .ok (n - 1) else if B.consume topic part n then .ok n else .error (.other 0))) := by
  refine ⟨?_, ?_⟩
  · intro r hr hle hi
    unfold KC.start KC.offsets
    have : ¬ r < kc.rollback := by omega
    simp [hr, this, Avro.wrap64_of_in hi]
  · intro hlow
    have hcond : (kc.resumption.get? (sourceOf topic part) = none ∨ (kc.resumption.get? (sourceOf topic part)).getD 0 < kc.rollback) := by
      cases h : kc.resumption.get? (sourceOf topic part) with
      | none => exact .inl rfl
      | some r => exact .inr (hlow r h)
    refine ⟨?_, ?_⟩
    · intro hh
      have : ¬ (kc.startHash = Hash.zero ∧ kc.rollback ≥ 0) := by
        rintro ⟨h1, h2⟩
        rcases hh with h | h
        · exact h h1
        · omega
      unfold KC.start KC.offsets
      simp only [hcond, if_true, this, if_false]
      split <;> rfl
    · intro h1 h2 n hn hi
      unfold KC.start KC.offsets
      simp only [hcond, if_true, h1, ge_iff_le, h2, and_self, hn, Avro.wrap64_of_in hi]

/-- **C47**: with a start hash and a non-negative rollback no partition is started after its recorded offset: the start offset is
`OffsetOldest` or at most the recorded one. -/
theorem C47_not_after (B : Broker) (kc : KC) (topic : GoStr) (part r s : Int) (hh : kc.startHash ≠ Hash.zero) (hb : 0 ≤ kc.rollback)
    (hr : kc.resumption.get? (sourceOf topic part) = some r) (hi : InInt64 r) (hs : kc.start B topic part = .ok s) : s = OffsetOldest ∨ s ≤ r := by
  by_cases hle : kc.rollback ≤ r
  · rw [(C47_offsets B kc topic part).1 r hr hle (by unfold InInt64 at *; omega)] at hs
    split at hs
    · simp only [Except.ok.injEq] at hs; omega
    · split at hs
      · simp only [Except.ok.injEq] at hs; omega
      · simp at hs
  · rw [((C47_offsets B kc topic part).2 (fun r' hr' => by rw [hr] at hr'; simp only [Option.some.injEq] at hr'; omega)).1 (.inl hh)] at hs
    split at hs
    · simp only [Except.ok.injEq] at hs; exact .inl hs.symm
    · simp at hs

/-- **C47**: a negative rollback moves the start behind the recorded offset, so the recorded message is not read. -/
theorem C47_negative (B : Broker) (kc : KC) (topic : GoStr) (part r : Int) (hb : kc.rollback < 0)
    (hr : kc.resumption.get? (sourceOf topic part) = some r) (h0 : 0 ≤ r) (hi : InInt64 (r - kc.rollback))
    (hc : B.consume topic part (r - kc.rollback) = true) : kc.start B topic part = .ok (r - kc.rollback) ∧ r < r - kc.rollback := by
  refine ⟨?_, by omega⟩
  rw [(C47_offsets B kc topic part).1 r hr (by omega) hi, if_pos hc]

theorem recorded_in {pb : PB} (hw : Writable pb) {k : GoStr} {r : Int} (h : recorded pb k = some r) : InInt64 r := by
  unfold recorded at h
  rcases Option.or_eq_some_iff.mp h with h | ⟨_, h⟩
  · exact (hw k r (.inl h)).2
  · exact (hw k r (.inr h)).2

/-- **C47**: after a restart from a block's resumption string no partition is started after what the block recorded for it. -/
theorem C47_resume (B : Broker) {pb : PB} (hw : Writable pb) {rollback : Int} (hb : 0 ≤ rollback) {start : Hash} (hh : start ≠ Hash.zero) :
    ∃ m, parseResumption (pb.resumptionString o) = .ok m ∧ ∀ topic part r s, recorded pb (sourceOf topic part) = some r →
      KC.start B { resumption := m, rollback := rollback, startHash := start } topic part = .ok s → s = OffsetOldest ∨ s ≤ r := by
  obtain ⟨m, h1, h2⟩ := C08_roundtrip (o := o) hw
  exact ⟨m, h1, fun topic part r s hr hs => C47_not_after B _ topic part r s hh hb (by rw [← hr]; exact h2 _) (recorded_in hw hr) hs⟩

/-- A broker that has everything from offset 4 to 20. -/
def exBroker : Broker := ⟨fun _ _ _ => some 20, fun _ _ x => x = OffsetOldest ∨ x = OffsetNewest ∨ 4 ≤ x ∧ x ≤ 20, fun _ => some [0, 1]⟩

/-- C47: a rollback of minus one. -/
example : KC.start exBroker ⟨GMap.empty.insert (str "t:0") 7, -1, exHash 1, false⟩ (str "t") 0 = .ok 8 :=
  (C47_negative exBroker ⟨GMap.empty.insert (str "t:0") 7, -1, exHash 1, false⟩ (str "t") 0 7 (by decide) (by decide +kernel) (by decide) (by decide)
    (by decide)).1

/-- C47: resumed, refused by the broker, rolled back too far, tracking from now. -/
example : KC.start exBroker ⟨GMap.empty.insert (str "t:0") 7, 2, exHash 1, false⟩ (str "t") 0 = .ok 5 ∧
    KC.start exBroker ⟨GMap.empty.insert (str "t:0") 7, 5, exHash 1, false⟩ (str "t") 0 = .ok 7 ∧
    KC.start exBroker ⟨GMap.empty.insert (str "t:0") 7, 9, exHash 1, false⟩ (str "t") 0 = .ok (-2) ∧
    KC.start exBroker ⟨GMap.empty, 9, Hash.zero, false⟩ (str "t") 0 = .ok 19 := by
  refine ⟨?_, ?_, ?_, ?_⟩ <;> decide +kernel

/-! ## C58: heartbeats -/

/-- **C58**: the count is the number of producers whose last heartbeat is younger than `d`. -/
theorem C58_count (hist : List (Hash × Int)) (now d : Int) (hd : minInt64 < d) (hd' : d ≤ maxInt64) (live : List Hash) (hn : live.Nodup)
    (hl : ∀ id, id ∈ live ↔ ∃ t, lastBeat hist id = some t ∧ now - t < d) :
    ((tracked hist).producerCount now d).toNat = live.length % 2 ^ 64 := by
  unfold PingTracker.producerCount
  rw [count_foldl]
  simp only [UInt64.zero_add, UInt64.toNat_ofNat']
  congr 1
  have hs : ∀ t, since now t < d ↔ now - t < d := by
    intro t
    unfold since minInt64 maxInt64 at *
    split
    · omega
    · split <;> omega
  have hmem : ∀ id, id ∈ ((tracked hist).entries.filter (fun e => decide (since now e.2 < d))).map Prod.fst ↔ id ∈ live := by
    intro id
    rw [hl]
    simp only [List.mem_map, List.mem_filter, decide_eq_true_eq, hs, ← tracked_get?, Prod.exists, exists_and_right, exists_eq_right,
      GMap.get?_eq_some_iff]
  have hnd : (((tracked hist).entries.filter (fun e => decide (since now e.2 < d))).map Prod.fst).Nodup :=
    (List.filter_sublist.map Prod.fst).nodup (tracked hist).nodup
  have h1 := nodup_length_le hnd (fun x hx => (hmem x).mp hx)
  have h2 := nodup_length_le hn (fun x hx => (hmem x).mpr hx)
  rw [List.length_map] at h1 h2
  omega

/-- C58: of three producers one has stopped. -/
example : (tracked [(exHash 1, 5), (exHash 2, 6), (exHash 3, 7), (exHash 1, 40), (exHash 3, 45)]).producerCount 50 30 = 2 := by
  decide +kernel

/-! ## C59: resumption for a time -/

theorem partitionTokens_ok {B : Broker} {topic : GoStr} {t : Int} {parts : List Int} {l : List GoStr}
    (h : partitionTokens B topic t parts = .ok l) : ∃ es : List (GoStr × Int), l = es.map token ∧
      ∀ k v, (k, v) ∈ es ↔ ∃ part ∈ parts, k = sourceOf topic part ∧ B.getOffset topic part t = some v := by
  induction parts generalizing l with
  | nil =>
    simp only [partitionTokens, Except.ok.injEq] at h
    exact ⟨[], by simp [← h], by simp⟩
  | cons p parts ih =>
    unfold partitionTokens at h
    split at h
    · simp at h
    · next off ho =>
      split at h
      · simp at h
      · next rest hr =>
        obtain ⟨es, h1, h2⟩ := ih hr
        simp only [Except.ok.injEq] at h
        refine ⟨(sourceOf topic p, off) :: es, by rw [← h, h1]; rfl, ?_⟩
        intro k v
        simp only [List.mem_cons, Prod.mk.injEq, h2]
        constructor
        · rintro (⟨rfl, rfl⟩ | ⟨q, hq, hk⟩)
          · exact ⟨p, .inl rfl, rfl, ho⟩
          · exact ⟨q, .inr hq, hk⟩
        · rintro ⟨q, rfl | hq, hk, hv⟩
          · rw [ho] at hv; exact .inl ⟨hk, (Option.some.inj hv).symm⟩
          · exact .inr ⟨q, hq, hk, hv⟩

theorem topicTokens_ok {B : Broker} {t : Int} {topics : List GoStr} {l : List GoStr} (h : topicTokens B t topics = .ok l) :
    ∃ es : List (GoStr × Int), l = es.map token ∧ ∀ k v, (k, v) ∈ es ↔
      ∃ topic ∈ topics, ∃ parts, B.partitions topic = some parts ∧ ∃ part ∈ parts, k = sourceOf topic part ∧ B.getOffset topic part t = some v := by
  induction topics generalizing l with
  | nil =>
    simp only [topicTokens, Except.ok.injEq] at h
    exact ⟨[], by simp [← h], by simp⟩
  | cons tp topics ih =>
    unfold topicTokens at h
    split at h
    · simp at h
    · next parts hp =>
      split at h
      · simp at h
      · next l1 hl1 =>
        split at h
        · simp at h
        · next rest hr =>
          obtain ⟨es1, h1, h2⟩ := partitionTokens_ok hl1
          obtain ⟨es, h3, h4⟩ := ih hr
          simp only [Except.ok.injEq] at h
          refine ⟨es1 ++ es, by rw [← h, h1, h3, List.map_append], ?_⟩
          intro k v
          simp only [List.mem_append, h2, h4, List.mem_cons]
          constructor
          · rintro (⟨q, hq, hk⟩ | ⟨tp', ht, hx⟩)
            · exact ⟨tp, .inl rfl, parts, hp, q, hq, hk⟩
            · exact ⟨tp', .inr ht, hx⟩
          · rintro ⟨tp', rfl | ht, ps, hps, hx⟩
            · rw [hp] at hps; rw [← Option.some.inj hps] at hx; exact .inl hx
            · exact .inr ⟨tp', ht, ps, hps, hx⟩

/-- **C59**: the resumption string for a time, given to a consumer, says for every partition of every topic the offset the broker
named, and nothing else. -/
theorem C59_timestamp {B : Broker} {topics : List GoStr} {t : Int} {s : GoStr} (hc : ∀ tp ∈ topics, CleanName tp)
    (ho : ∀ tp p v, B.getOffset tp p t = some v → InInt64 v) (h : kafkaResumptionForTimestamp B topics t = .ok s) :
    ∃ m, parseResumption s = .ok m ∧ ∀ k v, m.get? k = some v ↔
      ∃ topic ∈ topics, ∃ parts, B.partitions topic = some parts ∧ ∃ part ∈ parts, k = sourceOf topic part ∧ B.getOffset topic part t = some v := by
  unfold kafkaResumptionForTimestamp at h
  split at h
  · simp at h
  · next l hl =>
    simp only [Except.ok.injEq] at h
    obtain ⟨es, h1, h2⟩ := topicTokens_ok hl
    have hok : ∀ e ∈ es, CleanName e.1 ∧ InInt64 e.2 := by
      rintro ⟨k, v⟩ he
      obtain ⟨tp, htp, ps, _, p, _, rfl, hv⟩ := (h2 k v).mp he
      refine ⟨?_, ho _ _ _ hv⟩
      have := hc tp htp
      have hi := intDigits_clean p
      unfold CleanName sourceOf
      simp only [List.mem_append, List.mem_cons, not_or]
      exact ⟨⟨this.1, by decide, hi.2.1⟩, this.2, by decide, hi.2.2⟩
    have huniq : ∀ k v w, (k, v) ∈ es → (k, w) ∈ es → w = v := by
      intro k v w hv hw
      obtain ⟨tp, _, _, _, p, _, rfl, hv'⟩ := (h2 k v).mp hv
      obtain ⟨tp', _, _, _, p', _, e, hw'⟩ := (h2 _ w).mp hw
      obtain ⟨rfl, rfl⟩ := sourceOf_inj e
      rw [hv'] at hw'; exact (Option.some.inj hw').symm
    refine ⟨GMap.ofList es, by rw [← h, h1]; exact parse_tokens hok, ?_⟩
    intro k v
    rw [← h2]
    constructor
    · intro hg
      refine Classical.byContradiction fun hn => ?_
      by_cases hex : ∃ w, (k, w) ∈ es
      · obtain ⟨w, hw⟩ := hex
        rw [get?_ofList_agree hw (fun x hx => huniq _ _ _ hw hx)] at hg
        exact hn (by rw [← Option.some.inj hg]; exact hw)
      · rw [get?_ofList_none (fun w hw => hex ⟨w, hw⟩)] at hg
        simp at hg
    · intro hm
      exact get?_ofList_agree hm (fun x hx => huniq _ _ _ hm hx)

example : kafkaResumptionForTimestamp exBroker [str "t", str "u"] 77 = .ok (str "t:0=20;t:1=20;u:0=20;u:1=20") := by decide +kernel

/-! ## C60: source names -/

/-- **C60**: different topics or partitions have different source names, whatever the topic is called. -/
theorem C60_sources {t t' : GoStr} {p p' : Int} (h : sourceOf t p = sourceOf t' p') : t = t' ∧ p = p' := sourceOf_inj h

example : sourceOf (str "a:1") 2 ≠ sourceOf (str "a") 12 := by decide +kernel

/-! ## C61: the dispatcher -/

/-- **C61** refuted: a ReorgComplete message on an ordinary topic makes the counter of the wait group negative: panic. -/
theorem C61_refuted : ¬ ∀ (isReorg : Bool) (topic : GoStr) (wg : Nat) (ms : List RMsg), ∃ r, KC.dispatchAll isReorg topic wg ms = .ok r := by
  intro h
  obtain ⟨r, hr⟩ := h false [] 0 [⟨ReorgCompleteType :: (exHash 1).bytes, [], 0, []⟩]
  have : KC.dispatchAll false [] 0 [⟨ReorgCompleteType :: (exHash 1).bytes, [], 0, []⟩] = .error .panic := by rfl
  rw [this] at hr
  simp at hr

/-- **C61**, the rest: on a topic without ReorgComplete messages the dispatcher never faults, and hands exactly the messages
other than heartbeats, pings and reorg markers to the message processor, in order. -/
theorem C61_partial (topic : GoStr) (wg : Nat) (ms : List RMsg) (h : ∀ m ∈ ms, m.key.head? ≠ some ReorgCompleteType) :
    KC.dispatchAll false topic wg ms = .ok (ms.filter (fun m => Ordinary m), wg) := by
  induction ms with
  | nil => rfl
  | cons m ms ih =>
    have hm := h m (by simp)
    have ih := ih (fun m hm => h m (by simp [hm]))
    unfold KC.dispatchAll KC.dispatch
    rw [List.filter_cons]
    cases hk : m.key with
    | nil => simp [Ordinary, hk, ih]
    | cons t rest =>
      rw [hk] at hm
      simp only [List.head?_cons, ne_eq, Option.some.injEq] at hm
      by_cases h1 : t = ReorgType
      · simp [Ordinary, hk, h1, ih]
      · by_cases h2 : t = PingType
        · have : PingType ≠ ReorgType := by decide
          simp [Ordinary, hk, h2, this, ih]
        · simp [Ordinary, hk, h1, h2, hm, ih]

/-- C61: a block header, a heartbeat, a ping and an update. -/
example : (KC.dispatchAll false (str "t") 0 [⟨[0, 1], [], 0, []⟩, ⟨[], [], 1, []⟩, ⟨[255, 7], [], 2, []⟩, ⟨[3, 1], [9], 3, []⟩]) =
    .ok ([⟨[0, 1], [], 0, []⟩, ⟨[3, 1], [9], 3, []⟩], 0) := by decide +kernel

/-! ## C62: the latest block of a feed -/

theorem scan_max (C : Codec) (ms : List Msg) (h0 : Int) :
    h0 ≤ ms.foldl (scanStep C) h0 ∧
    (∀ m ∈ ms, m.key.head? = some BatchType → ∀ b, C.decBatch m.value = some b → b.number ≤ ms.foldl (scanStep C) h0) ∧
    (ms.foldl (scanStep C) h0 = h0 ∨ ∃ m ∈ ms, m.key.head? = some BatchType ∧ ∃ b, C.decBatch m.value = some b ∧ b.number = ms.foldl (scanStep C) h0) := by
  induction ms generalizing h0 with
  | nil => simp
  | cons m ms ih =>
    obtain ⟨h1, h2, h3⟩ := ih (scanStep C h0 m)
    rw [List.foldl_cons]
    have hstep : h0 ≤ scanStep C h0 m ∧ (m.key.head? = some BatchType → ∀ b, C.decBatch m.value = some b → b.number ≤ scanStep C h0 m) ∧
        (scanStep C h0 m = h0 ∨ m.key.head? = some BatchType ∧ ∃ b, C.decBatch m.value = some b ∧ b.number = scanStep C h0 m) := by
      unfold scanStep
      cases hk : m.key with
      | nil => simp
      | cons t rest =>
        simp only [List.head?_cons, Option.some.injEq]
        by_cases ht : t = BatchType
        · simp only [ht, if_true, true_implies, true_and]
          cases hb : C.decBatch m.value with
          | none => simp
          | some b =>
            simp only []
            split
            · next hlt => exact ⟨by omega, by rintro b' ⟨⟩; omega, .inr ⟨b, rfl, rfl⟩⟩
            · next hlt => exact ⟨by omega, by rintro b' ⟨⟩; omega, .inl rfl⟩
        · simp [ht]
    refine ⟨by omega, ?_, ?_⟩
    · intro x hx ht b hb
      rcases List.mem_cons.mp hx with rfl | hx
      · have := hstep.2.1 ht b hb; omega
      · exact h2 x hx ht b hb
    · rcases h3 with h3 | ⟨x, hx, ht, b, hb, e⟩
      · rw [h3]
        rcases hstep.2.2 with h | ⟨ht, b, hb, e⟩
        · exact .inl h
        · exact .inr ⟨m, by simp, ht, b, hb, e⟩
      · exact .inr ⟨x, by simp [hx], ht, b, hb, e⟩

/-- **C62**: the number returned is at least that of every header read and is that of one of them, or zero. -/
theorem C62_latest (C : Codec) (parts : List (List Msg)) :
    0 ≤ latestScanned C parts ∧
    (∀ ms ∈ parts, ∀ m ∈ ms, m.key.head? = some BatchType → ∀ b, C.decBatch m.value = some b → b.number ≤ latestScanned C parts) ∧
    (latestScanned C parts = 0 ∨ ∃ ms ∈ parts, ∃ m ∈ ms, m.key.head? = some BatchType ∧
      ∃ b, C.decBatch m.value = some b ∧ b.number = latestScanned C parts) := by
  obtain ⟨h1, h2, h3⟩ := scan_max C parts.flatten 0
  refine ⟨h1, fun ms hms m hm => h2 m (List.mem_flatten.mpr ⟨ms, hms, hm⟩), ?_⟩
  rcases h3 with h3 | ⟨m, hm, hx⟩
  · exact .inl h3
  · obtain ⟨ms, hms, hm⟩ := List.mem_flatten.mp hm
    exact .inr ⟨ms, hms, m, hm, hx⟩

/-- C62: two partitions, one header each. -/
example : latestScanned Avro.codec [[⟨[0], Avro.codec.encBatch ⟨7, [], exHash 1, GMap.empty⟩⟩, ⟨[3], []⟩], [],
    [⟨[0], Avro.codec.encBatch ⟨5, [], exHash 1, GMap.empty⟩⟩]] = 7 := by decide +kernel

/-! ## C63: the watcher -/

/-- **C63** refuted: a header key of fewer than 33 bytes makes the producer's watcher panic. -/
theorem C63_refuted : ¬ ∀ id key : Bytes, ∃ ev, watchKey id key = .ok ev := by
  intro h
  obtain ⟨ev, he⟩ := h [] [BatchType]
  have : watchKey [] [BatchType] = .error .panic := rfl
  rw [this] at he; simp at he

/-- **C63**, the rest: every other key is tolerated; a header key of a block makes its hash known, a ping of another producer is
a heartbeat, everything else, the own pings included, does nothing. -/
theorem C63_partial (id key : Bytes) (h : key.head? = some BatchType → 33 ≤ key.length) :
    ∃ ev, watchKey id key = .ok ev ∧
      (∀ x : Hash, key = getKey BatchType [x.bytes] → ev = .hash x) ∧
      (∀ x : Hash, key = getKey PingType [x.bytes] → x.bytes ≠ id → ev = .heartbeat x) ∧
      (key = getKey PingType [id] → ev = .nothing) ∧
      (∀ x, ev = .hash x → key.head? = some BatchType) ∧ (∀ x, ev = .heartbeat x → key.head? = some PingType) := by
  have hb : ∀ x : Hash, bytesToHash x.bytes = x := by
    intro x
    have := x.len
    obtain ⟨b, hb⟩ := x
    simp only [bytesToHash, hb, Nat.sub_self, List.replicate_zero, List.nil_append, List.drop_zero]
  have hbp : BatchType ≠ PingType := by decide
  have hpb : PingType ≠ BatchType := by decide
  cases key with
  | nil => exact ⟨.nothing, rfl, by simp [getKey], by simp [getKey], fun _ => rfl, by simp, by simp⟩
  | cons t rest =>
    by_cases ht : t = BatchType
    · have hl : ¬ (t :: rest).length < 33 := by
        have := h (by rw [ht]; rfl); omega
      refine ⟨.hash (bytesToHash (rest.take 32)), by unfold watchKey; simp only [ht, if_true]; rw [if_neg (by simpa [ht] using hl)], ?_, ?_, ?_, ?_, ?_⟩
      · intro x hx
        simp only [getKey, List.foldl_cons, List.foldl_nil, List.singleton_append, List.cons.injEq] at hx
        rw [hx.2, List.take_of_length_le (by rw [x.len]; omega), hb]
      · intro x hx
        simp only [getKey, List.foldl_cons, List.foldl_nil, List.singleton_append, List.cons.injEq] at hx
        exact absurd (ht.symm.trans hx.1) hbp
      · intro hx
        simp only [getKey, List.foldl_cons, List.foldl_nil, List.singleton_append, List.cons.injEq] at hx
        exact absurd (ht.symm.trans hx.1) hbp
      · intro _ _; simp [ht]
      · simp
    · by_cases hp : t = PingType
      · by_cases hi : rest = id
        · refine ⟨.nothing, by simp [watchKey, hp, hi, hpb], ?_, ?_, fun _ => rfl, by simp, by simp⟩
          · intro x hx
            simp only [getKey, List.foldl_cons, List.foldl_nil, List.singleton_append, List.cons.injEq] at hx
            exact absurd hx.1 ht
          · intro x hx hne
            simp only [getKey, List.foldl_cons, List.foldl_nil, List.singleton_append, List.cons.injEq] at hx
            exact absurd (hx.2.symm.trans hi) hne
        · refine ⟨.heartbeat (bytesToHash rest), by simp [watchKey, hp, hi, hpb], ?_, ?_, ?_, by simp, by simp [hp]⟩
          · intro x hx
            simp only [getKey, List.foldl_cons, List.foldl_nil, List.singleton_append, List.cons.injEq] at hx
            exact absurd hx.1 ht
          · intro x hx hne
            simp only [getKey, List.foldl_cons, List.foldl_nil, List.singleton_append, List.cons.injEq] at hx
            rw [hx.2, hb]
          · intro hx
            simp only [getKey, List.foldl_cons, List.foldl_nil, List.singleton_append, List.cons.injEq] at hx
            exact absurd hx.2 hi
      · refine ⟨.nothing, by simp [watchKey, ht, hp], ?_, ?_, fun _ => rfl, by simp, by simp⟩
        · intro x hx
          simp only [getKey, List.foldl_cons, List.foldl_nil, List.singleton_append, List.cons.injEq] at hx
          exact absurd hx.1 ht
        · intro x hx hne
          simp only [getKey, List.foldl_cons, List.foldl_nil, List.singleton_append, List.cons.injEq] at hx
          exact absurd hx.1 hp

/-- C63: a header key. -/
example : watchKey [1, 2] (getKey BatchType [(exHash 4).bytes]) = .ok (.hash (exHash 4)) := by decide +kernel

end Verif
