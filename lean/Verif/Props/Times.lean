import Verif.Props.Feed
import Verif.Props.Kafka
/-!
# C132: starting at a point in time

The broker is described by what its partitions keep. `ListOffsets` of Kafka answers a time with the offset of the first message that is not older, and with -1
when there is none; sarama passes that on.
-/
namespace Verif

/-- One partition on the broker with the times of its messages. -/
structure Spec.TLog where
  oldest : Nat
  msgs : List (Int × Msg)

/-- Without the times. -/
def Spec.TLog.plain (l : TLog) : PLog := ⟨l.oldest, l.msgs.map Prod.snd⟩

/-- The offset of the first message kept that is not older than `t`; -1 if there is none. -/
def Spec.TLog.offsetFor (l : TLog) (t : Int) : Int :=
  match l.msgs.findIdx? (fun e => t ≤ e.1) with
  | some i => ((l.oldest + i : Nat) : Int)
  | none => -1

/-- A broker with these topics and partitions. -/
def Spec.timed (parts : GoStr → Option (List Int)) (logs : GoStr → Int → TLog) : Broker where
  getOffset tp p t := some (if t = OffsetNewest then (logs tp p).plain.newest else if t = OffsetOldest then ((logs tp p).oldest : Int)
    else (logs tp p).offsetFor t)
  consume tp p o := ((logs tp p).plain.read o).isSome
  partitions := parts

/-- `l'` is a later state of the partition: messages have been appended and the oldest ones may have been dropped. -/
def Spec.Later (l l' : TLog) : Prop :=
  ∃ more gone, gone ≤ (l.msgs ++ more).length ∧ l'.oldest = l.oldest + gone ∧ l'.msgs = (l.msgs ++ more).drop gone

/-- Of the partition, everything is read from some point on, and no message before it is as new as `t`. -/
def Spec.ReadsFrom (t : Int) (l : TLog) (offset : Int) : Prop :=
  ∃ d, l.plain.read offset = some ((l.msgs.drop d).map Prod.snd) ∧ ∀ e ∈ l.msgs.take d, e.1 < t

/-- At most `n` messages are read before the first one as new as `t`. -/
def Spec.ReadsFew (t n : Int) (l : TLog) (offset : Int) : Prop :=
  ∀ d, l.plain.read offset = some ((l.msgs.drop d).map Prod.snd) → ∀ d' ≥ d, (∀ e ∈ (l.msgs.drop d).take (d' - d), e.1 < t) → d' ≤ l.msgs.length → ((d' - d : Nat) : Int) ≤ n

open Spec

theorem TLog.offsetFor_some {l : TLog} {t : Int} {e : Int × Msg} (he : e ∈ l.msgs) (ht : t ≤ e.1) :
    ∃ i, l.offsetFor t = ((l.oldest + i : Nat) : Int) ∧ i < l.msgs.length ∧ (∀ x ∈ l.msgs.take i, x.1 < t) ∧ ∃ x, l.msgs[i]? = some x ∧ t ≤ x.1 := by
  unfold TLog.offsetFor
  cases h : l.msgs.findIdx? (fun e => t ≤ e.1) with
  | none =>
    have := List.findIdx?_eq_none_iff.mp h e he
    simp at this
    omega
  | some i =>
    obtain ⟨hi, h1, h2⟩ := List.findIdx?_eq_some_iff_getElem.mp h
    refine ⟨i, rfl, hi, ?_, l.msgs[i], List.getElem?_eq_getElem hi, by simpa using h1⟩
    intro x hx
    obtain ⟨j, hj, rfl⟩ := List.mem_take_iff_getElem.mp hx
    have := h2 j (by omega)
    simp at this
    omega

theorem TLog.offsetFor_none {l : TLog} {t : Int} (h : ∀ e ∈ l.msgs, e.1 < t) : l.offsetFor t = -1 := by
  unfold TLog.offsetFor
  have : l.msgs.findIdx? (fun e => t ≤ e.1) = none := List.findIdx?_eq_none_iff.mpr (fun e he => by have := h e he; simp; omega)
  rw [this]

theorem TLog.read_at {l : TLog} {i : Nat} (h : i ≤ l.msgs.length) :
    l.plain.read ((l.oldest + i : Nat) : Int) = some ((l.msgs.drop i).map Prod.snd) := by
  unfold PLog.read TLog.plain PLog.newest OffsetOldest OffsetNewest
  simp only [List.length_map]
  rw [if_neg (by omega), if_neg (by omega), if_pos (by omega), List.map_drop]
  congr 2
  omega

/-- What reading from an offset that is accepted gives. -/
theorem TLog.read_inv {l : TLog} {o : Int} (ho : 0 ≤ o) (h : (l.plain.read o).isSome) : ∃ i, i ≤ l.msgs.length ∧ o = ((l.oldest + i : Nat) : Int) := by
  unfold PLog.read TLog.plain PLog.newest OffsetOldest OffsetNewest at h
  simp only [List.length_map] at h
  rw [if_neg (by omega), if_neg (by omega)] at h
  split at h
  · exact ⟨(o - l.oldest).toNat, by omega, by omega⟩
  · simp at h

section
variable {parts : GoStr → Option (List Int)} {logs logs' : GoStr → Int → TLog} {topics : List GoStr} {t : Int} {s : GoStr}

/-- The offset in the string for a partition. -/
theorem time_offset (hc : ∀ tp ∈ topics, CleanName tp) (hb : ∀ tp p, (logs tp p).plain.newest ≤ maxInt64) (ht : 0 ≤ t)
    (hs : kafkaResumptionForTimestamp (timed parts logs) topics t = .ok s) {tp : GoStr} (htp : tp ∈ topics) {ps : List Int} (hps : parts tp = some ps)
    {p : Int} (hp : p ∈ ps) : ∃ m, parseResumption s = .ok m ∧ m.get? (sourceOf tp p) = some ((logs tp p).offsetFor t) := by
  have hg : ∀ tp p, (timed parts logs).getOffset tp p t = some ((logs tp p).offsetFor t) := by
    intro tp p
    simp only [timed, OffsetNewest, OffsetOldest]
    have h1 : t ≠ -1 := by omega
    have h2 : t ≠ -2 := by omega
    simp only [h1, h2, if_false]
  obtain ⟨m, h1, h2⟩ := C59_timestamp hc (fun tp p v hv => by
    rw [hg] at hv
    cases hv
    have := hb tp p
    unfold PLog.newest TLog.plain maxInt64 at this
    simp only [List.length_map] at this
    unfold TLog.offsetFor
    split
    · next i h =>
      obtain ⟨hi, _⟩ := List.findIdx?_eq_some_iff_getElem.mp h
      unfold InInt64
      omega
    · decide) hs
  exact ⟨m, h1, (h2 _ _).mpr ⟨tp, htp, ps, hps, p, hp, rfl, hg tp p⟩⟩

/-- **C132**, nothing is lost: a consumer with a start hash, given the string for a time, reads in every partition every message that is not older than that time and is still
kept when it starts, those that came in between included, if it starts at all. -/
theorem C132_from_time (hc : ∀ tp ∈ topics, CleanName tp) (hb : ∀ tp p, (logs tp p).plain.newest ≤ maxInt64) (ht : 0 ≤ t)
    (hs : kafkaResumptionForTimestamp (timed parts logs) topics t = .ok s) {m : GMap GoStr Int} (hm : parseResumption s = .ok m) {rollback : Int} (hrb : 0 ≤ rollback)
    {start : Hash} (hst : start ≠ Hash.zero) {tp : GoStr} (htp : tp ∈ topics) {ps : List Int} (hps : parts tp = some ps) {p : Int} (hp : p ∈ ps)
    (hl : Later (logs tp p) (logs' tp p)) {o : Int}
    (ho : KC.start (timed parts logs') { resumption := m, rollback := rollback, startHash := start } tp p = .ok o) : ReadsFrom t (logs' tp p) o := by
  obtain ⟨m', hm', hr⟩ := time_offset hc hb ht hs htp hps hp
  rw [hm] at hm'
  cases hm'
  have hall : ReadsFrom t (logs' tp p) OffsetOldest := ⟨0, by simp [PLog.read, TLog.plain], by simp⟩
  by_cases hlow : (logs tp p).offsetFor t < rollback
  · rw [((C47_offsets (timed parts logs') ⟨m, rollback, start, false⟩ tp p).2 (fun r' hr' => by
      have : some r' = _ := hr'.symm.trans hr
      cases this; exact hlow)).1 (.inl hst)] at ho
    split at ho
    · cases ho; exact hall
    · cases ho
  · have hex : ∃ e ∈ (logs tp p).msgs, t ≤ e.1 := by
      refine Classical.byContradiction fun hn => ?_
      rw [TLog.offsetFor_none (fun e he => by
        have : ¬ t ≤ e.1 := fun h => hn ⟨e, he, h⟩
        omega)] at hlow
      omega
    obtain ⟨e, he, hte⟩ := hex
    obtain ⟨i, e1, e2, e3, _⟩ := TLog.offsetFor_some he hte
    have hin : InInt64 ((logs tp p).offsetFor t - rollback) := by
      have := hb tp p
      unfold PLog.newest TLog.plain maxInt64 at this
      simp only [List.length_map] at this
      unfold InInt64
      omega
    rw [(C47_offsets (timed parts logs') ⟨m, rollback, start, false⟩ tp p).1 _ hr (by simp only []; omega) hin] at ho
    simp only [] at ho
    have key : ∀ o, 0 ≤ o → o ≤ (logs tp p).offsetFor t → (timed parts logs').consume tp p o = true → ReadsFrom t (logs' tp p) o := by
      intro o h0 hle hacc
      obtain ⟨j, hj, rfl⟩ := TLog.read_inv h0 hacc
      refine ⟨j, TLog.read_at hj, ?_⟩
      obtain ⟨more, gone, g1, g2, g3⟩ := hl
      intro x hx
      rw [g3, List.take_drop] at hx
      have hx := List.mem_of_mem_drop hx
      rw [List.take_append_of_le_length (by omega)] at hx
      exact e3 x (List.mem_of_mem_take (i := gone + j) (by rw [List.take_take]; rwa [Nat.min_eq_left (by omega)]))
    split at ho
    · next h => cases ho; exact key _ (by omega) (by omega) h
    · split at ho
      · next h => cases ho; exact key _ (by omega) (by omega) h
      · cases ho

/-- **C132**, what is read besides: if a message as new as the time was kept when the string was made, and its offset is at least the rollback, at most `rollback` messages before it are
read. -/
theorem C132_few_partial (hc : ∀ tp ∈ topics, CleanName tp) (hb : ∀ tp p, (logs tp p).plain.newest ≤ maxInt64) (ht : 0 ≤ t)
    (hs : kafkaResumptionForTimestamp (timed parts logs) topics t = .ok s) {m : GMap GoStr Int} (hm : parseResumption s = .ok m) {rollback : Int} (hrb : 0 ≤ rollback)
    {start : Hash} {tp : GoStr} (htp : tp ∈ topics) {ps : List Int} (hps : parts tp = some ps) {p : Int} (hp : p ∈ ps)
    (hl : Later (logs tp p) (logs' tp p)) (hex : ∃ e ∈ (logs tp p).msgs, t ≤ e.1) (hhigh : rollback ≤ (logs tp p).offsetFor t) {o : Int}
    (ho : KC.start (timed parts logs') { resumption := m, rollback := rollback, startHash := start } tp p = .ok o) :
    ReadsFrom t (logs' tp p) o ∧ ReadsFew t rollback (logs' tp p) o := by
  obtain ⟨m', hm', hr⟩ := time_offset hc hb ht hs htp hps hp
  rw [hm] at hm'
  cases hm'
  obtain ⟨e, he, hte⟩ := hex
  obtain ⟨i, e1, e2, e3, x, e4, e5⟩ := TLog.offsetFor_some he hte
  have hin : InInt64 ((logs tp p).offsetFor t - rollback) := by
    have := hb tp p
    unfold PLog.newest TLog.plain maxInt64 at this
    simp only [List.length_map] at this
    unfold InInt64
    omega
  rw [(C47_offsets (timed parts logs') ⟨m, rollback, start, false⟩ tp p).1 _ hr hhigh hin] at ho
  simp only [] at ho
  have key : ∀ o, 0 ≤ o → o ≤ (logs tp p).offsetFor t → (logs tp p).offsetFor t - rollback ≤ o → (timed parts logs').consume tp p o = true →
      ReadsFrom t (logs' tp p) o ∧ ReadsFew t rollback (logs' tp p) o := by
    intro o h0 hle hge hacc
    obtain ⟨j, hj, rfl⟩ := TLog.read_inv h0 hacc
    obtain ⟨more, gone, g1, g2, g3⟩ := hl
    refine ⟨⟨j, TLog.read_at hj, ?_⟩, ?_⟩
    · intro x hx
      rw [g3, List.take_drop] at hx
      have hx := List.mem_of_mem_drop hx
      rw [List.take_append_of_le_length (by omega)] at hx
      exact e3 x (List.mem_of_mem_take (i := gone + j) (by rw [List.take_take]; rwa [Nat.min_eq_left (by omega)]))
    · intro d hd d' hdd hold hlen
      rw [TLog.read_at hj] at hd
      have hlen2 := congrArg List.length (Option.some.inj hd)
      simp only [List.length_map, List.length_drop] at hlen2
      refine Classical.byContradiction fun hn => ?_
      by_cases hdl : d ≤ (logs' tp p).msgs.length
      · have hjd : j = d := by omega
        subst hjd
        have hxat : (logs' tp p).msgs[i - gone]? = some x := by
          rw [g3, List.getElem?_drop, List.getElem?_append_left (by omega), ← e4]
          congr 1
          omega
        have := hold x (by
          refine List.mem_of_getElem? (i := i - gone - j) ?_
          rw [List.getElem?_take_of_lt (by omega), List.getElem?_drop, ← hxat]
          congr 1
          omega)
        omega
      · omega
  split at ho
  · next h => cases ho; exact key _ (by omega) (by omega) (by omega) h
  · split at ho
    · next h => cases ho; exact key _ (by omega) (by omega) (by omega) h
    · cases ho

/-- **C132**, a time after the last message: the string says -1 for the partition, and a consumer with a start hash reads the partition from its oldest message. -/
theorem C132_future (hc : ∀ tp ∈ topics, CleanName tp) (hb : ∀ tp p, (logs tp p).plain.newest ≤ maxInt64) (ht : 0 ≤ t)
    (hs : kafkaResumptionForTimestamp (timed parts logs) topics t = .ok s) {m : GMap GoStr Int} (hm : parseResumption s = .ok m) {rollback : Int} (hrb : 0 ≤ rollback)
    {start : Hash} (hst : start ≠ Hash.zero) {tp : GoStr} (htp : tp ∈ topics) {ps : List Int} (hps : parts tp = some ps) {p : Int} (hp : p ∈ ps)
    (hold : ∀ e ∈ (logs tp p).msgs, e.1 < t) :
    KC.start (timed parts logs') { resumption := m, rollback := rollback, startHash := start } tp p = .ok OffsetOldest ∧
      (logs' tp p).plain.read OffsetOldest = some ((logs' tp p).msgs.map Prod.snd) := by
  obtain ⟨m', hm', hr⟩ := time_offset hc hb ht hs htp hps hp
  rw [hm] at hm'
  cases hm'
  have hread : (logs' tp p).plain.read OffsetOldest = some ((logs' tp p).msgs.map Prod.snd) := by simp [PLog.read, TLog.plain]
  refine ⟨?_, hread⟩
  rw [((C47_offsets (timed parts logs') ⟨m, rollback, start, false⟩ tp p).2 (fun r' hr' => by
    have : some r' = _ := hr'.symm.trans hr
    cases this
    rw [TLog.offsetFor_none hold]
    simp only []
    omega)).1 (.inl hst)]
  rw [if_pos]
  show ((logs' tp p).plain.read OffsetOldest).isSome = true
  rw [hread]
  rfl

end

/-- The claims without conditions on the start hash and on what was kept. -/
def Spec.TimeClaim (claim : Int → Int → TLog → Int → Prop) (zero : Bool) : Prop :=
  ∀ (parts : GoStr → Option (List Int)) (logs logs' : GoStr → Int → TLog) (topics : List GoStr) (t : Int) (s : GoStr) (m : GMap GoStr Int) (rollback : Int)
    (start : Hash) (tp : GoStr) (ps : List Int) (p o : Int), (∀ tp ∈ topics, CleanName tp) → (∀ tp p, (logs tp p).plain.newest ≤ maxInt64) → 0 ≤ t →
    kafkaResumptionForTimestamp (timed parts logs) topics t = .ok s → parseResumption s = .ok m → 0 ≤ rollback → (zero = false → start ≠ Hash.zero) →
    tp ∈ topics → parts tp = some ps → p ∈ ps → Later (logs tp p) (logs' tp p) →
    KC.start (timed parts logs') { resumption := m, rollback := rollback, startHash := start } tp p = .ok o → claim t rollback (logs' tp p) o

/-- A partition that keeps the messages 4 to 8, of the times 10 to 14. -/
def exTimes : TLog := ⟨4, [(10, ⟨[1], []⟩), (11, ⟨[2], []⟩), (12, ⟨[3], []⟩), (13, ⟨[4], []⟩), (14, ⟨[5], []⟩)]⟩

theorem exTimes_later : Later exTimes exTimes := ⟨[], 0, by decide, rfl, rfl⟩

/-- C132: a time inside, with a rollback of one. -/
example : kafkaResumptionForTimestamp (timed (fun _ => some [0]) (fun _ _ => exTimes)) [str "t"] 12 = .ok (str "t:0=6") ∧
    KC.start (timed (fun _ => some [0]) (fun _ _ => exTimes)) ⟨GMap.empty.insert (str "t:0") 6, 1, exHash 1, false⟩ (str "t") 0 = .ok 5 ∧
    ReadsFrom 12 exTimes 5 := by
  have h1 : kafkaResumptionForTimestamp (timed (fun _ => some [0]) (fun _ _ => exTimes)) [str "t"] 12 = .ok (str "t:0=6") := by decide +kernel
  have h2 : KC.start (timed (fun _ => some [0]) (fun _ _ => exTimes)) ⟨GMap.empty.insert (str "t:0") 6, 1, exHash 1, false⟩ (str "t") 0 = .ok 5 := by decide +kernel
  exact ⟨h1, h2, (C132_few_partial (start := exHash 1) (rollback := 1) (by decide) (fun _ _ => by decide) (by decide) h1 (by rfl) (by decide) (List.mem_singleton.mpr rfl) rfl
    (List.mem_singleton.mpr rfl) exTimes_later ⟨(13, ⟨[4], []⟩), by decide, by decide⟩ (by decide) h2).1⟩

/-- **C132** is false for a time after the last message: more than `rollback` older messages are read, in fact all. -/
theorem C132_refuted_future : ¬ TimeClaim ReadsFew false := by
  intro h
  have := h (fun _ => some [0]) (fun _ _ => exTimes) (fun _ _ => exTimes) [str "t"] 15 (str "t:0=-1") (GMap.empty.insert (str "t:0") (-1)) 0 (exHash 1) (str "t") [0] 0 OffsetOldest
    (by decide) (fun _ _ => by decide) (by decide) (by decide +kernel) (by rfl) (by decide) (fun _ => by decide) (by decide) rfl (by decide) exTimes_later (by decide +kernel)
  exact absurd (this 0 (by decide) 5 (by decide) (by decide) (by decide)) (by decide)

/-- **C132** is false without a start hash: with a rollback larger than the offset the consumer starts at the newest message, and loses those since the time. -/
theorem C132_refuted_zero : ¬ TimeClaim (fun t _ => ReadsFrom t) true := by
  intro h
  obtain ⟨d, h1, h2⟩ := h (fun _ => some [0]) (fun _ _ => exTimes) (fun _ _ => exTimes) [str "t"] 12 (str "t:0=6") (GMap.empty.insert (str "t:0") 6) 7 Hash.zero (str "t") [0] 0 8
    (by decide) (fun _ _ => by decide) (by decide) (by decide +kernel) (by rfl) (by decide) (fun h => by cases h) (by decide) rfl (by decide) exTimes_later (by decide +kernel)
  have hlen := congrArg (Option.map List.length) h1
  have hr : exTimes.plain.read 8 = some [⟨[5], []⟩] := by decide
  rw [hr] at hlen
  simp only [Option.map_some, List.length_map, List.length_drop, List.length_cons, List.length_nil, Option.some.injEq] at hlen
  have h5 : exTimes.msgs.length = 5 := rfl
  have hd : d = 4 := by omega
  subst hd
  exact absurd (h2 (13, ⟨[4], []⟩) (by decide)) (by decide)

end Verif
