import Verif.Model.Feed
import Verif.Props.Kafka
/-! C75 (the reorg topic) and C77 (`LatestBlockFromFeed` on real partitions). -/
namespace Verif
open Spec

/-- What the scans read: the last hundred messages the broker keeps. -/
theorem recent_eq (l : PLog) : l.recent = l.msgs.drop (l.msgs.length - 100) := by
  unfold PLog.recent
  have hn : l.newest = (l.oldest : Int) + l.msgs.length := rfl
  simp only []
  by_cases h : l.newest - 100 < 0
  · rw [if_pos h]
    have : l.msgs.length - 100 = 0 := by omega
    simp [PLog.read, this]
  · rw [if_neg h]
    unfold PLog.read
    rw [if_neg (by unfold OffsetOldest; omega), if_neg (by unfold OffsetNewest; omega)]
    by_cases h2 : (l.oldest : Int) ≤ l.newest - 100
    · rw [if_pos ⟨h2, by omega⟩]
      have : (l.newest - 100 - l.oldest).toNat = l.msgs.length - 100 := by omega
      simp only [this]
    · rw [if_neg (by omega)]
      have : l.msgs.length - 100 = 0 := by omega
      simp [this]

/-- **C77**, exactly: the number is at least that of every header among the last hundred messages of each partition that answers, and it is
the number of one of them, or zero. -/
theorem C77_window_partial (C : Codec) (parts : List (Option PLog)) :
    0 ≤ latestFromFeed C parts ∧
    (∀ l, some l ∈ parts → ∀ m ∈ l.msgs.drop (l.msgs.length - 100), m.key.head? = some BatchType →
      ∀ b, C.decBatch m.value = some b → b.number ≤ latestFromFeed C parts) ∧
    (latestFromFeed C parts = 0 ∨ ∃ l, some l ∈ parts ∧ ∃ m ∈ l.msgs.drop (l.msgs.length - 100), m.key.head? = some BatchType ∧
      ∃ b, C.decBatch m.value = some b ∧ b.number = latestFromFeed C parts) := by
  obtain ⟨h1, h2, h3⟩ := C62_latest C (parts.map (fun | none => [] | some l => if l.newest = 0 then [] else l.recent))
  have e : latestScanned C (parts.map (fun | none => [] | some l => if l.newest = 0 then [] else l.recent)) = latestFromFeed C parts := rfl
  rw [e] at h1 h2 h3
  refine ⟨h1, ?_, ?_⟩
  · intro l hl m hm
    have hne : l.newest ≠ 0 := by
      intro h0
      have : l.msgs = [] := List.eq_nil_of_length_eq_zero (by unfold PLog.newest at h0; omega)
      rw [this] at hm; simp at hm
    refine h2 l.recent (List.mem_map.mpr ⟨some l, hl, by simp [hne]⟩) m ?_
    rw [recent_eq]; exact hm
  · rcases h3 with h3 | ⟨ms, hms, m, hm, hx⟩
    · exact .inl h3
    · obtain ⟨p, hp, rfl⟩ := List.mem_map.mp hms
      cases p with
      | none => simp at hm
      | some l =>
        simp only [] at hm
        split at hm
        · simp at hm
        · rw [recent_eq] at hm
          exact .inr ⟨l, hp, m, hm, hx⟩

/-- **C77**, a case in which the claim holds: no partition keeps more than a hundred messages, and all answer. -/
theorem C77_short_partial (C : Codec) (parts : List PLog) (hs : ∀ l ∈ parts, l.msgs.length ≤ 100) :
    (∀ l ∈ parts, ∀ m ∈ l.msgs, m.key.head? = some BatchType → ∀ b, C.decBatch m.value = some b →
      b.number ≤ latestFromFeed C (parts.map some)) ∧
    (latestFromFeed C (parts.map some) = 0 ∨ ∃ l ∈ parts, ∃ m ∈ l.msgs, m.key.head? = some BatchType ∧
      ∃ b, C.decBatch m.value = some b ∧ b.number = latestFromFeed C (parts.map some)) := by
  obtain ⟨_, h2, h3⟩ := C77_window_partial C (parts.map some)
  constructor
  · intro l hl m hm
    refine h2 l (List.mem_map.mpr ⟨l, hl, rfl⟩) m ?_
    have : l.msgs.length - 100 = 0 := by have := hs l hl; omega
    rw [this]; exact hm
  · rcases h3 with h3 | ⟨l, hl, m, hm, hx⟩
    · exact .inl h3
    · obtain ⟨l', hl', e⟩ := List.mem_map.mp hl
      cases e
      exact .inr ⟨l, hl', m, List.mem_of_mem_drop hm, hx⟩

/-- A header of block 7, and a heartbeat of some producer. -/
def exHeader7 : Msg := ⟨keyOf Avro.codec (.batch (exHash 1)), Avro.codec.encBatch ⟨7, [], exHash 1, GMap.empty⟩⟩
def exPing : Msg := ⟨PingType :: (exHash 3).bytes, []⟩

/-- **C77** refuted: a hundred heartbeats (producers send one every 30 seconds) after the last header, and the feed looks empty. -/
theorem C77_refuted : ¬ ∀ (parts : List (Option PLog)) (l : PLog) (m : Msg) (b : Batch), some l ∈ parts → m ∈ l.msgs →
    m.key.head? = some BatchType → Avro.codec.decBatch m.value = some b → b.number ≤ latestFromFeed Avro.codec parts := by
  intro h
  let l : PLog := ⟨0, exHeader7 :: List.replicate 100 exPing⟩
  have hd : ∃ b, Avro.codec.decBatch exHeader7.value = some b ∧ b.number = 7 := by
    have : (Avro.codec.decBatch exHeader7.value).map Batch.number = some 7 := by decide +kernel
    match h : Avro.codec.decBatch exHeader7.value with
    | none => rw [h] at this; simp at this
    | some b => rw [h] at this; exact ⟨b, rfl, by simpa using this⟩
  obtain ⟨b, hb, h7⟩ := hd
  have := h [some l] l exHeader7 b (by simp) (by simp [l]) (by decide +kernel) hb
  have h0 : latestFromFeed Avro.codec [some l] = 0 := by decide +kernel
  rw [h0, h7] at this
  omega

/-! ## C75 -/

/-- The sub-consumer starts at the last message that is there when it arrives. -/
theorem reorg_reads (l : PLog) (topic : GoStr) (later : List Msg) (hi : l.newest ≤ maxInt64) :
    reorgReads l topic later = some (l.msgs.drop (l.msgs.length - 1) ++ later) := by
  have hn : l.newest = (l.oldest : Int) + l.msgs.length := rfl
  have hw : Avro.wrap64 (l.newest - 1) = l.newest - 1 := by
    refine Avro.wrap64_of_in ⟨?_, ?_⟩ <;> unfold maxInt64 at hi <;> omega
  have ho : reorgKC.offsets l.broker topic 0 = (l.newest, l.newest - 1) := by
    simp [KC.offsets, reorgKC, PLog.broker, hw]
  unfold reorgReads KC.start
  rw [ho]
  simp only [PLog.broker]
  by_cases h0 : l.newest = 0
  · have h1 : l.read (l.newest - 1) = some [] := by simp [PLog.read, h0, OffsetOldest, OffsetNewest]
    have h2 : l.msgs = [] := List.eq_nil_of_length_eq_zero (by omega)
    simp [h1, h2]
  · have hge : 1 ≤ l.newest := by omega
    cases hm : l.msgs with
    | nil =>
      have hlen : l.newest = l.oldest := by rw [hn, hm]; simp
      have h1 : l.read (l.newest - 1) = none := by
        unfold PLog.read OffsetOldest OffsetNewest
        rw [if_neg (by omega), if_neg (by omega), if_neg (by omega)]
      have h2 : l.read l.newest = some [] := by
        unfold PLog.read OffsetOldest OffsetNewest
        rw [if_neg (by omega), if_neg (by omega), if_pos (by omega), hm]; simp
      simp [h1, h2]
    | cons x xs =>
      have hlen : l.newest = l.oldest + (xs.length + 1) := by rw [hn, hm]; simp
      have h1 : l.read (l.newest - 1) = some ((x :: xs).drop ((x :: xs).length - 1)) := by
        unfold PLog.read OffsetOldest OffsetNewest
        rw [if_neg (by omega), if_neg (by omega), if_pos (by omega), hm]
        congr 2
        simp; omega
      simp [h1]

/-- The dispatcher of a sub-consumer on the messages of a reorg topic. -/
def reorgDispatch (topic : GoStr) (l : PLog) (later : List Msg) : Option (Except Fault (List RMsg × Nat)) :=
  (reorgReads l topic later).map (fun ms => KC.dispatchAll true [] 0 (received topic 0 ms))

/-- **C75** refuted, for every finished reorg: if the last message of the reorg topic is the ReorgComplete message when the
consumer arrives, nothing at all is passed on and the dispatcher panics. -/
theorem C75_refuted (topic : GoStr) (l : PLog) (later ms : List Msg) (m : Msg) (hi : l.newest ≤ maxInt64) (hl : l.msgs = ms ++ [m])
    (hm : m.key.head? = some ReorgCompleteType) : reorgDispatch topic l later = some (.error .panic) := by
  unfold reorgDispatch
  rw [reorg_reads l topic later hi, hl]
  have : (ms ++ [m]).drop ((ms ++ [m]).length - 1) = [m] := by simp
  rw [this]
  obtain ⟨rest, hk⟩ : ∃ rest, m.key = ReorgCompleteType :: rest := by
    cases hk : m.key with
    | nil => rw [hk] at hm; simp at hm
    | cons t rest => rw [hk] at hm; simp at hm; exact ⟨rest, by rw [hm]⟩
  simp only [Option.map_some, Option.some.injEq]
  simp only [received, List.singleton_append, List.zipIdx_cons, List.map_cons, KC.dispatchAll, hk]
  rfl

/-- What has to be passed on: everything but heartbeats, pings and the message that ends the reorg. -/
def ReorgData (m : RMsg) : Prop := m.key ≠ [] ∧ m.key.head? ≠ some PingType ∧ m.key.head? ≠ some ReorgCompleteType

instance (m : RMsg) : Decidable (ReorgData m) := inferInstanceAs (Decidable (_ ∧ _ ∧ _))

/-- The dispatcher, message by message. -/
theorem dispatch_reorg (topic : GoStr) (wg : Nat) (m : RMsg) (ms : List RMsg) :
    KC.dispatchAll true topic wg (m :: ms) =
      if m.key.head? = some ReorgCompleteType then
        match wg with
        | 0 => .error .panic
        | n + 1 => KC.dispatchAll true topic n ms
      else match KC.dispatchAll true topic (if m.key.head? = some ReorgType then wg + 1 else wg) ms with
        | .error f => .error f
        | .ok (l, wg) => .ok (if ReorgData m then m :: l else l, wg) := by
  rw [KC.dispatchAll]
  unfold KC.dispatch
  cases hk : m.key with
  | nil => simp [ReorgData, hk]; match KC.dispatchAll true topic wg ms with | .error f => rfl | .ok (l, w) => rfl
  | cons t rest =>
    by_cases h1 : t = ReorgType
    · subst h1
      have e1 : ReorgType ≠ PingType := by decide
      have e2 : ReorgType ≠ ReorgCompleteType := by decide
      simp only [if_true, List.head?_cons, Option.some.injEq, e2, if_false]
      simp [ReorgData, hk, e1, e2]; match KC.dispatchAll true topic (wg + 1) ms with | .error f => rfl | .ok (l, w) => rfl
    · by_cases h2 : t = PingType
      · subst h2
        have e1 : PingType ≠ ReorgCompleteType := by decide
        simp only [h1, if_true, if_false, List.head?_cons, Option.some.injEq, e1]
        simp [ReorgData, hk]; match KC.dispatchAll true topic wg ms with | .error f => rfl | .ok (l, w) => rfl
      · by_cases h3 : t = ReorgCompleteType
        · subst h3
          simp only [h1, h2, if_true, if_false, List.head?_cons]
          cases wg with
          | zero => rfl
          | succ n =>
            simp only []
            match KC.dispatchAll true topic n ms with
            | .error f => rfl
            | .ok (l, w) => simp
        · simp only [h1, h2, h3, if_false, List.head?_cons, Option.some.injEq]
          simp [ReorgData, hk, h2, h3]; match KC.dispatchAll true topic wg ms with | .error f => rfl | .ok (l, w) => rfl

theorem dispatch_data (topic : GoStr) (wg : Nat) (ms rest : List RMsg)
    (h : ∀ m ∈ ms, m.key.head? ≠ some ReorgCompleteType ∧ m.key.head? ≠ some ReorgType) :
    KC.dispatchAll true topic wg (ms ++ rest) = match KC.dispatchAll true topic wg rest with
      | .error f => .error f
      | .ok (l, wg) => .ok (ms.filter (fun m => ReorgData m) ++ l, wg) := by
  induction ms with
  | nil =>
    simp only [List.nil_append, List.filter_nil]
    match KC.dispatchAll true topic wg rest with
    | .error f => rfl
    | .ok (l, w) => rfl
  | cons m ms ih =>
    have hm := h m (by simp)
    rw [List.cons_append, dispatch_reorg, if_neg hm.1, if_neg hm.2, ih (fun x hx => h x (by simp [hx]))]
    match KC.dispatchAll true topic wg rest with
    | .error f => rfl
    | .ok (l, w) =>
      simp only [List.filter_cons]
      by_cases hd : ReorgData m <;> simp [hd]

/-- **C75**, the part that holds: a consumer that arrives when the reorg topic holds at most its first message gets everything:
the Reorg message and all data messages are passed on in order, and the count of open reorgs ends at zero. -/
theorem C75_partial (topic : GoStr) (l : PLog) (later data : List Msg) (first last : Msg) (hi : l.newest ≤ maxInt64)
    (hs : l.msgs.length ≤ 1) (hl : l.msgs ++ later = first :: data ++ [last]) (h1 : first.key.head? = some ReorgType)
    (hd : ∀ m ∈ data, m.key.head? ≠ some ReorgCompleteType ∧ m.key.head? ≠ some ReorgType)
    (h2 : last.key.head? = some ReorgCompleteType) :
    reorgDispatch topic l later =
      some (.ok ((received topic 0 (l.msgs ++ later)).filter (fun m => ReorgData m), 0)) := by
  have h0 : l.msgs.length - 1 = 0 := by omega
  unfold reorgDispatch
  rw [reorg_reads l topic later hi, h0, List.drop_zero, hl]
  simp only [Option.map_some, Option.some.injEq]
  have hr : received topic 0 (first :: data ++ [last]) =
      ⟨first.key, first.value, 0, topic⟩ :: (received topic 1 data ++ [⟨last.key, last.value, ((data.length + 1 : Nat) : Int), topic⟩]) := by
    unfold received
    rw [List.cons_append, List.zipIdx_cons, List.zipIdx_append, List.map_cons, List.map_append]
    congr 2
    · apply List.ext_getElem
      · simp
      · intro i h1 h2; simp [Nat.add_comm]
    · simp; omega
  rw [hr, dispatch_reorg, if_neg (by rw [h1]; decide), if_pos h1]
  rw [dispatch_data _ _ _ _ (by
    intro m hm
    unfold received at hm
    obtain ⟨e, he, rfl⟩ := List.mem_map.mp hm
    exact hd _ (by obtain ⟨_, _, hx⟩ := List.mem_zipIdx he; rw [hx]; exact List.getElem_mem _))]
  rw [dispatch_reorg, if_pos h2]
  simp only [KC.dispatchAll, List.append_nil, List.filter_cons, List.filter_append, List.filter_nil]
  have e1 : ReorgData ⟨first.key, first.value, 0, topic⟩ := by
    refine ⟨?_, ?_, ?_⟩
    · intro h; simp only [] at h; rw [h] at h1; simp at h1
    · simp only []; rw [h1]; decide
    · simp only []; rw [h1]; decide
  have e2 : ¬ ReorgData ⟨last.key, last.value, ((data.length + 1 : Nat) : Int), topic⟩ := fun h => h.2.2 h2
  simp only [e1, e2, decide_true, decide_false, if_true, Bool.false_eq_true, if_false, List.append_nil]

/-- A reorg topic at the moment of the announcement, and what follows; the same topic when everything is there. -/
example : (reorgDispatch (str "t") ⟨0, [⟨ReorgType :: (exHash 2).bytes, []⟩]⟩
      [exHeader7, ⟨ReorgCompleteType :: (exHash 2).bytes, []⟩]) =
      some (.ok ([⟨ReorgType :: (exHash 2).bytes, [], 0, str "t"⟩, ⟨exHeader7.key, exHeader7.value, 1, str "t"⟩], 0)) ∧
    (reorgDispatch (str "t") ⟨0, [⟨ReorgType :: (exHash 2).bytes, []⟩, exHeader7, ⟨ReorgCompleteType :: (exHash 2).bytes, []⟩]⟩ []) =
      some (.error .panic) := by decide +kernel

/-- C77: two partitions, the second with more than a hundred messages. -/
example : latestFromFeed Avro.codec [some ⟨3, [exPing, exHeader7]⟩, none, some ⟨0, exHeader7 :: List.replicate 100 exPing⟩] = 7 ∧
    ([exPing, exHeader7] : List Msg).length ≤ 100 := by decide +kernel

end Verif
