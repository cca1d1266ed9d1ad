import Verif.Props.Lives
import Verif.Props.KafkaSystem
import Verif.Props.Feed
/-!
# C133: a Kafka consumer that is stopped and started again

C130 with the partitions, the resumption string, the start offsets and the broker's retention in place of "what is received".
-/
namespace Verif

/-- The partitions a consumer reads: their names, and all that was and will ever be written to them. A message's offset is its index. -/
structure Spec.Partitions where
  np : Nat
  topic : Nat → GoStr
  part : Nat → Int
  full : Nat → List Msg

/-- What the broker keeps of a partition when the offsets below `old` have been dropped and those from `upto` on have not been written. -/
def Spec.kept (full : List Msg) (old upto : Nat) : PLog := ⟨old, (full.take upto).drop old⟩

/-- One start of a consumer with the resumption offsets `m`: for every partition, `start` is the offset `Start` arrives at with what the broker keeps then, and `msgs`
are the messages read from there, up to (not including) the offset `upto`. -/
structure Spec.ReadsParts (P : Partitions) (m : GMap GoStr Int) (rb : Int) (startHash : Hash) (old now upto : Nat → Nat) (start : Nat → Int)
    (msgs : Nat → List RMsg) : Prop where
  order : ∀ i, i < P.np → old i ≤ now i ∧ now i ≤ upto i ∧ upto i ≤ (P.full i).length
  starts : ∀ i, i < P.np → KC.start (Spec.kept (P.full i) (old i) (now i)).broker { resumption := m, rollback := rb, startHash := startHash } (P.topic i) (P.part i) =
    .ok (start i)
  reads : ∀ i, i < P.np → ∃ ms, (Spec.kept (P.full i) (old i) (upto i)).read (start i) = some ms ∧
    msgs i = received (sourceOf (P.topic i) (P.part i)) (if start i = OffsetOldest then old i else (start i).toNat) ms

/-- `KLives C P rb cfg res0 applied res r`: over several lives of a Kafka consumer, the first one started with the resumption string `res0`, its application has applied the
blocks `applied` and stored the last of them together with its resumption string `res`; `r` was processed in the life in which it was applied. Each life starts
from what was stored, with what the broker keeps then, runs under any schedule, and is stopped at any moment. -/
inductive Spec.KLives (C : Codec) (P : Spec.Partitions) (rb : Int) (cfg : Config) (res0 : GoStr) : List PB → GoStr → List RMsg → Prop
  | first : Spec.KLives C P rb cfg res0 [] res0 []
  | life {applied told : List PB} {b : PB} {res : GoStr} {r0 : List RMsg} {m : GMap GoStr Int} {old now upto : Nat → Nat} {start : Nat → Int} {msgs : Nat → List RMsg}
      {env : Env} {o o' : MapOrder} {topic : GoStr} {k0 k : KSys} :
      Spec.KLives C P rb cfg res0 applied res r0 → parseResumption res = .ok m →
      Spec.ReadsParts P m rb (Spec.startAt cfg applied).lastHash old now upto start msgs →
      KSys.start (Spec.startAt cfg applied) P.np start msgs = .ok k0 → KSys.Steps C env o topic k0 k →
      told ++ [b] <+: k.sys.omp.log.flatMap addedBy →
      Spec.KLives C P rb cfg res0 (applied ++ (told ++ [b])) (b.resumptionString o') (k.seen.filter (fun m => Ordinary m))

/-- What is in the partitions: the messages of the chain `all` on the first start's block and of older blocks `side`, heartbeats and pings. -/
structure Spec.KafkaLogs (C : Codec) (cfg : Config) (n : Int) (side all : List SentBlock) (P : Spec.Partitions) : Prop where
  around : Spec.Around C cfg n side all
  only : ∀ i, i < P.np → ∀ m ∈ P.full i, m.key = [] ∨ m.key.head? = some PingType ∨ ∃ s ∈ side ++ all, m ∈ s.msgs
  clean : ∀ i, i < P.np → CleanName (P.topic i)
  length : ∀ i, i < P.np → (P.full i).length ≤ maxInt64
  names : ∀ i j, i < P.np → j < P.np → P.topic i = P.topic j → P.part i = P.part j → i = j

open Spec

section
variable {C : Codec} {env : Env} {o : MapOrder} {cfg : Config} {n : Int} {side all : List SentBlock} {P : Partitions} {topic : GoStr} {rb : Int} {res0 : GoStr}

/-! ## What is read -/

theorem mem_received {src : GoStr} {f : Nat} {ms : List Msg} {r : RMsg} :
    r ∈ received src f ms ↔ ∃ j x, ms[j]? = some x ∧ r = ⟨x.key, x.value, ((f + j : Nat) : Int), src⟩ := by
  unfold received
  rw [List.mem_map]
  constructor
  · rintro ⟨⟨x, j⟩, h, rfl⟩
    exact ⟨j, x, List.mk_mem_zipIdx_iff_getElem?.mp h, by simp⟩
  · rintro ⟨j, x, h, rfl⟩
    exact ⟨(x, j), List.mk_mem_zipIdx_iff_getElem?.mpr h, by simp⟩

/-- Reading from an offset that is accepted gives the messages from there on. -/
theorem kept_read {full : List Msg} {old upto : Nat} (h : old ≤ upto) (hu : upto ≤ full.length) {s : Int} (hs : s ≠ OffsetNewest) {ms : List Msg}
    (hr : (kept full old upto).read s = some ms) :
    let f := if s = OffsetOldest then old else s.toNat
    old ≤ f ∧ f ≤ upto ∧ s ≤ f ∧ ms = (full.take upto).drop f := by
  intro f
  unfold PLog.read at hr
  simp only [kept, PLog.newest, List.length_drop, List.length_take] at hr
  split at hr
  · next he =>
    cases hr
    simp only [f, he, if_true]
    refine ⟨Nat.le_refl _, h, ?_, trivial⟩
    unfold OffsetOldest
    omega
  · next he =>
    try rw [if_neg hs] at hr
    split at hr
    · next hin =>
      cases hr
      simp only [f, he, if_false]
      refine ⟨by omega, by omega, by omega, ?_⟩
      rw [List.drop_drop]
      congr 1
      omega
    · cases hr

/-- `Start` never begins at the newest offset when there is a start hash. -/
theorem start_not_newest {B : Broker} {kc : KC} {tp : GoStr} {p s : Int} (hh : kc.startHash ≠ Hash.zero) (hb : 0 ≤ kc.rollback)
    (hi : ∀ r, kc.resumption.get? (sourceOf tp p) = some r → InInt64 r) (h : kc.start B tp p = .ok s) : s ≠ OffsetNewest := by
  by_cases hlow : ∀ r, kc.resumption.get? (sourceOf tp p) = some r → r < kc.rollback
  · rw [((C47_offsets B kc tp p).2 hlow).1 (.inl hh)] at h
    split at h
    · cases h; decide
    · cases h
  · have : ∃ r, kc.resumption.get? (sourceOf tp p) = some r ∧ kc.rollback ≤ r := by
      refine Classical.byContradiction fun hn => hlow fun r hr => ?_
      have : ¬ kc.rollback ≤ r := fun hle => hn ⟨r, hr, hle⟩
      omega
    obtain ⟨r, hr, hle⟩ := this
    rw [(C47_offsets B kc tp p).1 r hr hle (by have := hi r hr; unfold InInt64 at *; omega)] at h
    unfold OffsetNewest
    split at h
    · cases h; omega
    · split at h
      · cases h; omega
      · cases h

/-- A message read is one of the partition. -/
theorem Spec.ReadsParts.mem {m : GMap GoStr Int} {h : Hash} {old now upto : Nat → Nat} {start : Nat → Int} {msgs : Nat → List RMsg}
    (hR : ReadsParts P m rb h old now upto start msgs) (hm : ∀ i, i < P.np → start i ≠ OffsetNewest) {i : Nat} (hi : i < P.np) {r : RMsg} (hr : r ∈ msgs i) :
    ∃ (j : Nat) (x : Msg), (P.full i)[j]? = some x ∧ r = ⟨x.key, x.value, (j : Int), sourceOf (P.topic i) (P.part i)⟩ ∧ start i ≤ j := by
  obtain ⟨h1, h2, h3⟩ := hR.order i hi
  obtain ⟨ms, hrd, e⟩ := hR.reads i hi
  obtain ⟨k1, k2, k3, k4⟩ := kept_read (by omega) h3 (hm i hi) hrd
  rw [e] at hr
  obtain ⟨j, x, hx, rfl⟩ := mem_received.mp hr
  rw [k4, List.getElem?_drop] at hx
  refine ⟨_, x, ?_, rfl, by omega⟩
  have hlt : (if start i = OffsetOldest then old i else (start i).toNat) + j < upto i := by
    obtain ⟨hl, -⟩ := List.getElem?_eq_some_iff.mp hx
    rw [List.length_take] at hl
    omega
  rwa [List.getElem?_take_of_lt hlt] at hx

/-- A message of the partition from the start on is read. -/
theorem Spec.ReadsParts.get {m : GMap GoStr Int} {h : Hash} {old now upto : Nat → Nat} {start : Nat → Int} {msgs : Nat → List RMsg}
    (hR : ReadsParts P m rb h old now upto start msgs) (hm : ∀ i, i < P.np → start i ≠ OffsetNewest) {i : Nat} (hi : i < P.np) {j : Nat} {x : Msg}
    (hx : (P.full i)[j]? = some x) (hj : j < upto i) (hs : if start i = OffsetOldest then old i ≤ j else start i ≤ j) :
    (⟨x.key, x.value, (j : Int), sourceOf (P.topic i) (P.part i)⟩ : RMsg) ∈ msgs i := by
  obtain ⟨h1, h2, h3⟩ := hR.order i hi
  obtain ⟨ms, hrd, e⟩ := hR.reads i hi
  obtain ⟨k1, k2, k3, k4⟩ := kept_read (by omega) h3 (hm i hi) hrd
  rw [e]
  have hf : (if start i = OffsetOldest then old i else (start i).toNat) ≤ j := by
    split at hs
    · next h => rw [if_pos h]; exact hs
    · next h => rw [if_neg h]; omega
  refine mem_received.mpr ⟨j - (if start i = OffsetOldest then old i else (start i).toNat), x, ?_, ?_⟩
  · rw [k4, List.getElem?_drop, Nat.add_sub_cancel' hf, List.getElem?_take_of_lt hj, hx]
  · rw [Nat.add_sub_cancel' hf]

/-- Where a partition is started when the broker keeps the rollback window: everything from the recorded offset less the rollback on is read. -/
theorem start_reads {full : List Msg} {old now : Nat} (hon : old ≤ now) (hnl : now ≤ full.length) {m : GMap GoStr Int} {h : Hash} (hh : h ≠ Hash.zero) (hrb : 0 ≤ rb)
    {tp : GoStr} {p s : Int} (hs : KC.start (kept full old now).broker { resumption := m, rollback := rb, startHash := h } tp p = .ok s)
    (hi : ∀ r, m.get? (sourceOf tp p) = some r → InInt64 r) (hk : ∀ r, m.get? (sourceOf tp p) = some r → rb ≤ r → old ≤ r - rb) {j : Nat} (hj : old ≤ j)
    (hjr : ∀ r, m.get? (sourceOf tp p) = some r → r ≤ j + rb) : if s = OffsetOldest then old ≤ j else s ≤ j := by
  have hacc : ∀ r : Int, 0 ≤ r → ((kept full old now).broker.consume tp p r = true ↔ (old : Int) ≤ r ∧ r ≤ now) := by
    intro r hr
    simp only [PLog.broker, PLog.read, kept, PLog.newest, List.length_drop, List.length_take, OffsetOldest, OffsetNewest]
    rw [if_neg (by omega), if_neg (by omega)]
    constructor
    · intro hx
      split at hx
      · omega
      · simp at hx
    · intro hx
      rw [if_pos (by omega)]
      rfl
  by_cases hlow : ∀ r, m.get? (sourceOf tp p) = some r → r < rb
  · rw [((C47_offsets _ ⟨m, rb, h, false⟩ tp p).2 hlow).1 (.inl hh)] at hs
    split at hs
    · cases hs; rw [if_pos rfl]; exact hj
    · cases hs
  · have : ∃ r, m.get? (sourceOf tp p) = some r ∧ rb ≤ r := by
      refine Classical.byContradiction fun hn => hlow fun r hr => ?_
      have : ¬ rb ≤ r := fun hle => hn ⟨r, hr, hle⟩
      omega
    obtain ⟨r, hr, hle⟩ := this
    have hkr := hk r hr hle
    have hjr := hjr r hr
    rw [(C47_offsets _ ⟨m, rb, h, false⟩ tp p).1 r hr hle (by have := hi r hr; simp only []; unfold InInt64 at *; omega)] at hs
    simp only [] at hs
    split at hs
    · cases hs
      split
      · exact hj
      · omega
    · next hn =>
      split at hs
      · next hc =>
        rw [hacc r (by omega)] at hc
        rw [hacc (r - rb) (by omega)] at hn
        exact (hn (by omega)).elim
      · cases hs

/-! ## Lives -/

theorem recorded_parts {r : List RMsg}
    (hr : ∀ x ∈ r, ∃ i, i < P.np ∧ ∃ (j : Nat) (y : Msg), (P.full i)[j]? = some y ∧ x = ⟨y.key, y.value, (j : Int), sourceOf (P.topic i) (P.part i)⟩)
    {cfg' : Config} {env' : Env} {mp0 mp : MP} {ms : List RMsg} (hms : ∀ x ∈ ms, x ∈ r) (hn : newMP cfg' = .ok mp0) (hrun : mp0.run C env' ms = .ok mp) {pb : PB}
    (hpb : pb ∈ mp.emitted) : ∀ k v, pb.resumption.get? k = some v ∨ pb.resumptionDefaults.get? k = some v →
      ∃ i, i < P.np ∧ k = sourceOf (P.topic i) (P.part i) ∧ ∃ j : Nat, v = j ∧ j < (P.full i).length := by
  have key : ∀ x ∈ ms, ∃ i, i < P.np ∧ x.source = sourceOf (P.topic i) (P.part i) ∧ ∃ j : Nat, x.offset = j ∧ j < (P.full i).length := by
    intro x hx
    obtain ⟨i, hi, j, y, hy, rfl⟩ := hr x (hms x hx)
    exact ⟨i, hi, rfl, j, rfl, (List.getElem?_eq_some_iff.mp hy).1⟩
  have hprov := ((prov_parts C env' (· ∈ ms) (run_ok_len hrun) cfg'.tracked cfg'.frp).emitted hn
    (by intro s o hs; simp at hs) (fun m hm => hm) hrun pb hpb).1
  obtain ⟨_, _, _, _, _, _, _, _, hp⟩ := hprov.head
  intro k v hkv
  rcases hkv with hkv | hkv
  · obtain ⟨x, hx, hh, rfl, rfl⟩ := hp.res _ _ hkv
    exact key x hx
  · obtain ⟨p1, hd, p2, e, hh, hfrom⟩ := emitted_noted hn hrun pb hpb
    obtain ⟨x, hx, rfl, rfl⟩ := hfrom _ _ hkv
    refine key x ?_
    rw [e]
    rcases List.mem_append.mp hx with hx | hx
    · simp [hx]
    · rw [List.mem_singleton.mp hx]; simp

/-- What has been recorded in the stored string. -/
structure Stored (P : Partitions) (res0 : GoStr) (applied : List PB) (res : GoStr) : Prop where
  nil : applied = [] → res = res0
  some : ∀ b, applied.getLast? = some b → ∃ m, parseResumption res = .ok m ∧ (∀ source, m.get? source = resumeAt b source) ∧
    ∀ k v, m.get? k = some v → ∃ i, i < P.np ∧ k = sourceOf (P.topic i) (P.part i) ∧ ∃ j : Nat, v = j ∧ j < (P.full i).length

/-- The offsets in a string are those of an int64. -/
theorem stored_int64 (hL : KafkaLogs C cfg n side all P) {m : GMap GoStr Int}
    (h : ∀ k v, m.get? k = some v → ∃ i, i < P.np ∧ k = sourceOf (P.topic i) (P.part i) ∧ ∃ j : Nat, v = j ∧ j < (P.full i).length) :
    ∀ k v, m.get? k = some v → InInt64 v := by
  intro k v hv
  obtain ⟨i, hi, _, j, rfl, hj⟩ := h k v hv
  have := hL.length i hi
  unfold maxInt64 at this
  unfold InInt64
  omega

/-- The first start is given offsets of an int64. -/
def Spec.GoodString (res0 : GoStr) : Prop := ∀ m, parseResumption res0 = .ok m → ∀ k v, m.get? k = some v → InInt64 v

/-- The messages of a life. -/
theorem life_msgs (hL : KafkaLogs C cfg n side all P) (hrb : 0 ≤ rb) {applied : List PB} {m : GMap GoStr Int} (hne : (startAt cfg applied).lastHash ≠ Hash.zero)
    (hi : ∀ k v, m.get? k = some v → InInt64 v) {old now upto : Nat → Nat} {start : Nat → Int} {msgs : Nat → List RMsg}
    (hR : ReadsParts P m rb (startAt cfg applied).lastHash old now upto start msgs) :
    (∀ i, i < P.np → start i ≠ OffsetNewest) ∧
    (∀ i, i < P.np → ∀ r ∈ msgs i, r.key = [] ∨ r.key.head? = some PingType ∨ ∃ s ∈ side ++ all, Copy s.msgs r) := by
  have h1 : ∀ i, i < P.np → start i ≠ OffsetNewest := fun i hi' =>
    start_not_newest (kc := ⟨m, rb, (startAt cfg applied).lastHash, false⟩) hne hrb (fun r hr => hi _ r hr) (hR.starts i hi')
  refine ⟨h1, fun i hi' r hr => ?_⟩
  obtain ⟨j, x, hx, rfl, _⟩ := hR.mem h1 hi' hr
  rcases hL.only i hi' x (List.mem_of_getElem? hx) with e | e | ⟨s, hs, e⟩
  · exact .inl e
  · exact .inr (.inl e)
  · exact .inr (.inr ⟨s, hs, x, e, rfl, rfl⟩)

/-- What passes the dispatcher is copies of messages of the blocks. -/
theorem seen_copies {cfg' : Config} {np : Nat} {start : Nat → Int} {msgs : Nat → List RMsg} {k : KSys} (hk : KInv C env o cfg' np start msgs k) {blocks : List SentBlock}
    (ho : ∀ i, i < np → ∀ r ∈ msgs i, r.key = [] ∨ r.key.head? = some PingType ∨ ∃ s ∈ blocks, Copy s.msgs r) :
    ∀ r ∈ k.seen.filter (fun m => Ordinary m), ∃ s ∈ blocks, Copy s.msgs r := by
  intro r hr
  obtain ⟨hr, hor⟩ := List.mem_filter.mp hr
  have hor : Ordinary r := by simpa using hor
  obtain ⟨i, hi⟩ := mem_seen hr
  obtain ⟨h1, h2⟩ := hk.source hi
  rcases ho i h1 r h2 with e | e | e
  · exact absurd e hor.1
  · exact absurd e hor.2.2.1
  · exact e

/-- The lives of a Kafka consumer are lives in the sense of C130. -/
theorem klives (hL : KafkaLogs C cfg n side all P) (hC : C.Lawful) (hrb : 0 ≤ rb) (h0 : GoodString res0) {applied : List PB} {res : GoStr} {r : List RMsg}
    (hl : KLives C P rb cfg res0 applied res r) :
    Lives C cfg (side ++ all) applied r ∧ Stored P res0 applied res ∧ (startAt cfg applied).lastHash ≠ Hash.zero ∧
    (∀ x ∈ r, ∃ i, i < P.np ∧ ∃ (j : Nat) (y : Msg), (P.full i)[j]? = some y ∧ x = ⟨y.key, y.value, (j : Int), sourceOf (P.topic i) (P.part i)⟩) := by
  have hne : ∀ {applied : List PB} {r : List RMsg}, Lives C cfg (side ++ all) applied r → (startAt cfg applied).lastHash ≠ Hash.zero := by
    intro applied r h
    obtain ⟨a, c, rfl, he⟩ := lives_place hL.around hC h
    obtain ⟨n', h'⟩ := hL.around.steps he
    exact h'.nonzero.1
  induction hl with
  | first => exact ⟨.first, ⟨fun _ => rfl, by simp⟩, hL.around.nonzero.1, by simp⟩
  | @life applied told b res r0 m old now upto start msgs env o o' topic k0 k hl hp hR hk0 hk hpre ih =>
    obtain ⟨i1, i2, i3, i4⟩ := ih
    have hi : ∀ k v, m.get? k = some v → InInt64 v := by
      rcases hlast : applied.getLast? with _ | b'
      · have : applied = [] := List.getLast?_eq_none_iff.mp hlast
        rw [i2.nil this] at hp
        exact h0 m hp
      · obtain ⟨m', hm', _, h3⟩ := i2.some b' hlast
        rw [hp] at hm'
        cases hm'
        exact stored_int64 hL h3
    obtain ⟨g1, g2⟩ := life_msgs hL hrb i3 hi hR
    have hv := kinv_steps hk0 hk
    obtain ⟨s0, r1, r2⟩ := hv.run
    have hlife : Lives C cfg (side ++ all) (applied ++ (told ++ [b])) (k.seen.filter (fun m => Ordinary m)) :=
      .life i1 (seen_copies hv g2) r1 r2 hpre
    have hr : ∀ x ∈ k.seen.filter (fun m => Ordinary m), ∃ i, i < P.np ∧ ∃ (j : Nat) (y : Msg), (P.full i)[j]? = some y ∧
        x = ⟨y.key, y.value, (j : Int), sourceOf (P.topic i) (P.part i)⟩ := by
      intro x hx
      obtain ⟨i, hi⟩ := mem_seen (List.mem_filter.mp hx).1
      obtain ⟨h1, h2⟩ := hv.source hi
      obtain ⟨j, y, hy, e, _⟩ := hR.mem g1 h1 h2
      exact ⟨i, h1, j, y, hy, e⟩
    refine ⟨hlife, ⟨by simp, ?_⟩, hne hlife, hr⟩
    intro b' hb'
    have hbb : (applied ++ (told ++ [b])).getLast? = some b := by rw [← List.append_assoc]; simp
    rw [hbb] at hb'
    cases hb'
    obtain ⟨cfg', env', mp0, mp, ms, rest, hn, e, hrun, hem⟩ := lives_last hlife hbb
    have hrec := recorded_parts hr (fun x hx => by rw [e]; simp [hx]) hn hrun hem
    have hw : Writable b := by
      intro k v hkv
      obtain ⟨i, hi, rfl, j, rfl, hj⟩ := hrec k v hkv
      have hc := hL.clean i hi
      have hd := intDigits_clean (P.part i)
      have := hL.length i hi
      refine ⟨?_, by unfold maxInt64 at this; unfold InInt64; omega⟩
      unfold CleanName sourceOf
      simp only [List.mem_append, List.mem_cons, not_or]
      exact ⟨⟨hc.1, by decide, hd.2.1⟩, hc.2, by decide, hd.2.2⟩
    obtain ⟨m', hm1, hm2⟩ := C08_roundtrip (o := o') hw
    refine ⟨m', hm1, hm2, fun k v hkv => hrec k v ?_⟩
    rw [hm2] at hkv
    unfold recorded at hkv
    cases h1 : b.resumption.get? k with
    | some w => rw [h1] at hkv; exact .inl hkv
    | none => rw [h1] at hkv; exact .inr hkv

/-- **C133**: however often a Kafka consumer was stopped and started again from what was stored, whatever the broker had dropped and however its goroutines were scheduled, the blocks applied
are the first blocks of the chain, in order, once each, exactly as produced. -/
theorem C133_lives (hL : KafkaLogs C cfg n side all P) (hC : C.Lawful) (hrb : 0 ≤ rb) (h0 : GoodString res0) {applied : List PB} {res : GoStr} {r : List RMsg}
    (hl : KLives C P rb cfg res0 applied res r) :
    applied.length ≤ all.length ∧ ∀ x ∈ all.zip applied, Exact cfg.tracked x.1.schema x.1.args x.1.subs x.2 :=
  C130_lives hL.around hC (klives hL hC hrb h0 hl).1

/-- The stored string can be read, and its offsets are those of an int64. -/
theorem stored_offsets (hL : KafkaLogs C cfg n side all P) (hC : C.Lawful) (hrb : 0 ≤ rb) (h0 : GoodString res0) {applied : List PB} {res : GoStr} {r0 : List RMsg}
    (hl : KLives C P rb cfg res0 applied res r0) {m : GMap GoStr Int} (hp : parseResumption res = .ok m) : ∀ k v, m.get? k = some v → InInt64 v := by
  obtain ⟨_, i2, _, _⟩ := klives hL hC hrb h0 hl
  rcases hlast : applied.getLast? with _ | b'
  · have : applied = [] := List.getLast?_eq_none_iff.mp hlast
    rw [i2.nil this] at hp
    exact h0 m hp
  · obtain ⟨m', hm', _, h3⟩ := i2.some b' hlast
    rw [hp] at hm'
    cases hm'
    exact stored_int64 hL h3

/-- **C133**: the stored resumption string can always be read. -/
theorem C133_string (hL : KafkaLogs C cfg n side all P) (hC : C.Lawful) (hrb : 0 ≤ rb) (h0 : GoodString res0) {applied : List PB} {res : GoStr} {r0 : List RMsg}
    (hl : KLives C P rb cfg res0 applied res r0) (hne : applied ≠ []) : ∃ m, parseResumption res = .ok m := by
  obtain ⟨_, i2, _, _⟩ := klives hL hC hrb h0 hl
  obtain ⟨m, h, _⟩ := i2.some _ (List.getLast?_eq_some_getLast hne)
  exact ⟨m, h⟩

/-- **C133**: in no life is a goroutine about to fault, nothing is ever removed, there are no endless executions (on the messages read), and a life that cannot go on has handled everything
read, provided that something is read from every partition. -/
theorem C133_progress (hL : KafkaLogs C cfg n side all P) (hC : C.Lawful) (hrb : 0 ≤ rb) (h0 : GoodString res0) {applied : List PB} {res : GoStr} {r0 : List RMsg}
    (hl : KLives C P rb cfg res0 applied res r0) {m : GMap GoStr Int} (hp : parseResumption res = .ok m) {old now upto : Nat → Nat} {start : Nat → Int}
    {msgs : Nat → List RMsg} (hR : ReadsParts P m rb (startAt cfg applied).lastHash old now upto start msgs) {k0 : KSys}
    (hk0 : KSys.start (startAt cfg applied) P.np start msgs = .ok k0) :
    (∀ f : Nat → KSys, ¬ ∀ n, KSys.Step C env o topic (f n) (f (n + 1))) ∧
    ∀ k, KSys.Steps C env o topic k0 k → ¬ k.Faulting C env o topic ∧ (∀ a rem, OOut.update a rem ∈ k.sys.omp.log → rem = []) ∧
      ((∀ i, i < P.np → msgs i ≠ []) → (∃ k', KSys.Step C env o topic k k') ∨
        k.sys.Drained ∧ k.taken = k.w.out.length ∧ ∀ i, i < P.np → forwarded k.w.out i = msgs i) := by
  refine ⟨fun f hf => k_no_endless f hf, ?_⟩
  intro k hk
  obtain ⟨i1, i2, i3, i4⟩ := klives hL hC hrb h0 hl
  obtain ⟨g1, g2⟩ := life_msgs hL hrb i3 (stored_offsets hL hC hrb h0 hl hp) hR
  have hv := kinv_steps hk0 hk
  obtain ⟨s0, r1, r2⟩ := hv.run
  obtain ⟨hnf, hrem⟩ := C130_calm hL.around hC i1 (seen_copies hv g2) r1 r2
  have calm : ∀ {i : Nat} {m : RMsg}, (i, m) ∈ k.w.out → ∀ wg, ∃ a, KC.dispatch false topic wg m.key = .ok (a, wg) ∧ ∀ t, a ≠ .reorgConsumer t := by
    intro i x hx wg
    obtain ⟨h1, h2⟩ := hv.source hx
    rcases g2 i h1 x h2 with e | e | ⟨s, hs, e⟩
    · exact ⟨.heartbeatGauge, by rw [e]; rfl, by simp⟩
    · cases hkey : x.key with
      | nil => rw [hkey] at e; simp at e
      | cons t rest =>
        rw [hkey] at e
        simp only [List.head?_cons, Option.some.injEq] at e
        subst e
        exact ⟨.ping (bytesToHash rest), by simp [KC.dispatch, show PingType ≠ ReorgType by decide], by simp⟩
    · have ho := copy_ordinary hC (hL.around.correct s hs) e
      cases hkey : x.key with
      | nil => exact absurd hkey ho.1
      | cons t rest =>
        obtain ⟨_, o1, o2, o3⟩ := ho
        rw [hkey] at o1 o2 o3
        simp only [List.head?_cons, ne_eq, Option.some.injEq] at o1 o2 o3
        exact ⟨.process, by simp [KC.dispatch, o1, o2, o3], by simp⟩
  refine ⟨?_, hrem, ?_⟩
  · rintro (⟨i, x, f, hx, hf⟩ | hf)
    · obtain ⟨a, ha, _⟩ := calm (List.mem_of_getElem? hx) k.wg
      rw [ha] at hf
      simp at hf
    · exact hnf hf
  · intro hwarm
    have hwarm' : ∀ i, i < P.np → ∃ x ∈ msgs i, start i ≤ x.offset := by
      intro i hi
      cases hmi : msgs i with
      | nil => exact (hwarm i hi hmi).elim
      | cons x xs =>
        obtain ⟨j, y, _, e, hj⟩ := hR.mem g1 hi (r := x) (by rw [hmi]; simp)
        exact ⟨x, by simp, by rw [e]; exact hj⟩
    by_cases hd : k.sys.Drained
    · by_cases htk : k.taken < k.w.out.length
      · left
        obtain ⟨a, ha, hr⟩ := calm (List.getElem_mem htk) k.wg
        exact ⟨_, .take hd.1 hd.2.1 (List.getElem?_eq_getElem htk) ha hr⟩
      · have htk : k.taken = k.w.out.length := by have := hv.taken; omega
        by_cases hw : ∃ t, WState.Step k.w t
        · left
          obtain ⟨t, ht⟩ := hw
          refine ⟨_, .part ht ?_⟩
          rw [htk]
          unfold messagesCap
          cases ht <;> simp [WState.upd]
        · right
          exact ⟨hd, htk, fun i hi => C67_all_partial hv.w hwarm' (fun t ht => hw ⟨t, ht⟩) i hi⟩
    · left
      obtain ⟨s, hs⟩ := (k.sys.progress (C := C) (env := env) (o := o) hd).resolve_right hnf
      exact ⟨_, .inner hs⟩

/-- **C133**, the end: a life that has come to rest, and from whose start on all messages of the blocks not yet applied were in the partitions, completes the chain. -/
theorem C133_rest (hL : KafkaLogs C cfg n side all P) (hC : C.Lawful) (hrb : 0 ≤ rb) (h0 : GoodString res0) {applied : List PB} {res : GoStr} {r0 : List RMsg}
    (hl : KLives C P rb cfg res0 applied res r0) {m : GMap GoStr Int} (hp : parseResumption res = .ok m) {old now upto : Nat → Nat} {start : Nat → Int}
    {msgs : Nat → List RMsg} (hR : ReadsParts P m rb (startAt cfg applied).lastHash old now upto start msgs) {k0 k : KSys}
    (hk0 : KSys.start (startAt cfg applied) P.np start msgs = .ok k0) (hk : KSys.Steps C env o topic k0 k) (hstuck : ∀ k', ¬ KSys.Step C env o topic k k')
    (hg : Genuine env k.sys) (hwarm : ∀ i, i < P.np → msgs i ≠ [])
    (hall : ∀ sb ∈ all.drop applied.length, ∀ x ∈ sb.msgs, ∃ i, i < P.np ∧ ∃ y ∈ msgs i, y.key = x.key ∧ Copy sb.msgs y) :
    AllExact cfg.tracked all (applied ++ k.sys.omp.log.flatMap addedBy) := by
  obtain ⟨i1, i2, i3, i4⟩ := klives hL hC hrb h0 hl
  obtain ⟨g1, g2⟩ := life_msgs hL hrb i3 (stored_offsets hL hC hrb h0 hl hp) hR
  have hv := kinv_steps hk0 hk
  obtain ⟨s0, r1, r2⟩ := hv.run
  obtain ⟨hd, htk, hfw⟩ := (((C133_progress (env := env) (o := o) (topic := topic) hL hC hrb h0 hl hp hR hk0).2 k hk).2.2 hwarm).resolve_left
    (fun ⟨k', hk'⟩ => hstuck k' hk')
  refine C130_end hL.around hC i1 (seen_copies hv g2) ?_ r1 r2 hd hg
  intro sb hsb x hx
  obtain ⟨i, hi, y, hy, e1, e2⟩ := hall sb hsb x hx
  have hsb' : sb ∈ side ++ all := List.mem_append_right _ (List.mem_of_mem_drop hsb)
  refine ⟨y, List.mem_filter.mpr ⟨?_, by simpa using copy_ordinary hC (hL.around.correct sb hsb') e2⟩, e1, e2⟩
  rw [← hfw i hi] at hy
  obtain ⟨⟨j, z⟩, hz, rfl⟩ := List.mem_map.mp hy
  unfold KSys.seen
  rw [htk, List.take_length]
  exact List.mem_map.mpr ⟨(j, z), (List.mem_filter.mp hz).1, rfl⟩

/-- **C133**, the end, from the stored string: if the broker still keeps the rollback window of the stored offsets, and the messages of the blocks not yet applied are at most the rollback
behind the stored block, a life that has come to rest completes the chain. -/
theorem C133_end_partial (hL : KafkaLogs C cfg n side all P) (hC : C.Lawful) (hrb : 0 ≤ rb) (h0 : GoodString res0) {applied : List PB} {res : GoStr} {r0 : List RMsg}
    (hl : KLives C P rb cfg res0 applied res r0) {b : PB} (hb : applied.getLast? = some b) {m : GMap GoStr Int} (hp : parseResumption res = .ok m)
    {old now upto : Nat → Nat} {start : Nat → Int}
    {msgs : Nat → List RMsg} (hR : ReadsParts P m rb (startAt cfg applied).lastHash old now upto start msgs) {k0 k : KSys}
    (hk0 : KSys.start (startAt cfg applied) P.np start msgs = .ok k0) (hk : KSys.Steps C env o topic k0 k) (hstuck : ∀ k', ¬ KSys.Step C env o topic k k')
    (hg : Genuine env k.sys) (hwarm : ∀ i, i < P.np → msgs i ≠ [])
    (hkept : ∀ i, i < P.np → ∀ r, m.get? (sourceOf (P.topic i) (P.part i)) = some r → rb ≤ r → old i ≤ r - rb)
    (hlog : ∀ sb ∈ all.drop applied.length, ∀ x ∈ sb.msgs, ∃ y ∈ sb.msgs, y.key = x.key ∧ ∃ i, i < P.np ∧ ∃ j, (P.full i)[j]? = some y ∧ old i ≤ j ∧
      j < upto i ∧ Behind rb b.hash r0 ⟨y.key, y.value, (j : Int), sourceOf (P.topic i) (P.part i)⟩) :
    AllExact cfg.tracked all (applied ++ k.sys.omp.log.flatMap addedBy) := by
  obtain ⟨i1, i2, i3, i4⟩ := klives hL hC hrb h0 hl
  have hint := stored_offsets hL hC hrb h0 hl hp
  obtain ⟨g1, g2⟩ := life_msgs hL hrb i3 hint hR
  refine C133_rest hL hC hrb h0 hl hp hR hk0 hk hstuck hg hwarm ?_
  intro sb hsb x hx
  obtain ⟨y, hy, hyx, i, hi, j, hj, ho, hu, hbe⟩ := hlog sb hsb x hx
  refine ⟨i, hi, _, hR.get g1 hi hj hu ?_, hyx, y, hy, rfl, rfl⟩
  obtain ⟨q1, q2, q3⟩ := hR.order i hi
  refine start_reads q1 (by omega) i3 hrb (hR.starts i hi) (fun r hr => hint _ r hr) (hkept i hi) ho ?_
  intro r hr
  obtain ⟨m', hm', hm2, _⟩ := i2.some b hb
  rw [hp] at hm'
  cases hm'
  obtain ⟨cfg', env', mp0, mp, ms, rest, hn, e, hrun, hem⟩ := lives_last i1 hb
  rw [hm2] at hr
  exact behind_reads hn hrun hem (m := ⟨x.key, x.value, (j : Int), sourceOf (P.topic i) (P.part i)⟩)
    ⟨fun y hy => hbe.own y (by rw [e]; simp [hy]), fun l1 y l2 e' hh => hbe.before l1 y (l2 ++ rest) (by rw [e, e']; simp) hh⟩ hr

/-- A partition can be started if the recorded offset is still kept. -/
theorem start_exists {full : List Msg} {old now : Nat} (hon : old ≤ now) (hnl : now ≤ full.length) {m : GMap GoStr Int} {h : Hash} (hh : h ≠ Hash.zero)
    {tp : GoStr} {p : Int} (hi : ∀ r, m.get? (sourceOf tp p) = some r → rb ≤ r → InInt64 (r - rb)) (hk : ∀ r, m.get? (sourceOf tp p) = some r → old ≤ r ∧ r ≤ now) :
    ∃ s, KC.start (kept full old now).broker { resumption := m, rollback := rb, startHash := h } tp p = .ok s ∧ (kept full old now).broker.consume tp p s = true := by
  by_cases hlow : ∀ r, m.get? (sourceOf tp p) = some r → r < rb
  · rw [((C47_offsets _ ⟨m, rb, h, false⟩ tp p).2 hlow).1 (.inl hh)]
    have hc : (kept full old now).broker.consume tp p OffsetOldest = true := by simp [PLog.broker, PLog.read]
    rw [if_pos hc]
    exact ⟨_, rfl, hc⟩
  · have : ∃ r, m.get? (sourceOf tp p) = some r ∧ rb ≤ r := by
      refine Classical.byContradiction fun hn => hlow fun r hr => ?_
      have : ¬ rb ≤ r := fun hle => hn ⟨r, hr, hle⟩
      omega
    obtain ⟨r, hr, hle⟩ := this
    obtain ⟨k1, k2⟩ := hk r hr
    rw [(C47_offsets _ ⟨m, rb, h, false⟩ tp p).1 r hr hle (hi r hr hle)]
    simp only []
    split
    · next hc => exact ⟨_, rfl, hc⟩
    · have hc : (kept full old now).broker.consume tp p r = true := by
        simp only [PLog.broker, PLog.read, kept, PLog.newest, List.length_drop, List.length_take, OffsetOldest, OffsetNewest]
        rw [if_neg (by omega), if_neg (by omega), if_pos (by omega)]
        rfl
      rw [if_pos hc]
      exact ⟨_, rfl, hc⟩

/-- **C133**: as long as the broker keeps the recorded messages the consumer can be started again. -/
theorem C133_starts (hL : KafkaLogs C cfg n side all P) (hC : C.Lawful) (hrb : 0 ≤ rb) (h0 : GoodString res0) {applied : List PB} {res : GoStr} {r0 : List RMsg}
    (hl : KLives C P rb cfg res0 applied res r0) {m : GMap GoStr Int} (hp : parseResumption res = .ok m) {old now : Nat → Nat}
    (hon : ∀ i, i < P.np → old i ≤ now i ∧ now i ≤ (P.full i).length)
    (hk : ∀ i, i < P.np → ∀ r, m.get? (sourceOf (P.topic i) (P.part i)) = some r → old i ≤ r ∧ r ≤ now i) :
    ∃ start msgs, ReadsParts P m rb (startAt cfg applied).lastHash old now now start msgs := by
  obtain ⟨_, _, i3, _⟩ := klives hL hC hrb h0 hl
  have hint := stored_offsets hL hC hrb h0 hl hp
  have hex : ∀ i, ∃ s, i < P.np → KC.start (kept (P.full i) (old i) (now i)).broker
      { resumption := m, rollback := rb, startHash := (startAt cfg applied).lastHash } (P.topic i) (P.part i) = .ok s ∧
      (kept (P.full i) (old i) (now i)).broker.consume (P.topic i) (P.part i) s = true := by
    intro i
    by_cases hi : i < P.np
    · obtain ⟨s, hs⟩ := start_exists (rb := rb) (tp := P.topic i) (p := P.part i) (m := m) (h := (startAt cfg applied).lastHash) (hon i hi).1 (hon i hi).2 i3
        (fun r hr hle => by have := hint _ r hr; unfold InInt64 at *; omega) (hk i hi)
      exact ⟨s, fun _ => hs⟩
    · exact ⟨0, fun h => (hi h).elim⟩
  obtain ⟨st, hst⟩ := Classical.axiomOfChoice hex
  refine ⟨st, fun i => received (sourceOf (P.topic i) (P.part i)) (if st i = OffsetOldest then old i else (st i).toNat)
    (((kept (P.full i) (old i) (now i)).read (st i)).getD []), fun i hi => ⟨(hon i hi).1, Nat.le_refl _, (hon i hi).2⟩, fun i hi => (hst i hi).1, ?_⟩
  intro i hi
  have := (hst i hi).2
  simp only [PLog.broker] at this
  cases hr : (kept (P.full i) (old i) (now i)).read (st i) with
  | none => rw [hr] at this; simp at this
  | some ms => exact ⟨ms, rfl, rfl⟩

/-! ## One partition -/

theorem received_ordered (src : GoStr) (f : Nat) (ms : List Msg) : (received src f ms).Pairwise (fun a b => a.offset < b.offset) := by
  rw [List.pairwise_iff_getElem]
  intro i j hi hj hij
  simp only [received, List.getElem_map, List.getElem_zipIdx]
  omega

/-- One partition is read in order. -/
theorem klives_ordered (h1 : P.np = 1) {applied : List PB} {res : GoStr} {r : List RMsg} (hl : KLives C P rb cfg res0 applied res r) :
    r.Pairwise (fun a b => a.offset < b.offset) := by
  cases hl with
  | first => exact List.Pairwise.nil
  | @life applied told b res r0 m old now upto start msgs env o o' topic k0 k hl hp hR hk0 hk hpre =>
    have hv := kinv_steps hk0 hk
    have hout : k.w.out.map Prod.snd = forwarded k.w.out 0 := by
      unfold forwarded
      congr 1
      refine (List.filter_eq_self.mpr ?_).symm
      rintro ⟨i, m⟩ him
      have := (hv.source him).1
      simp only [decide_eq_true_eq]
      omega
    have hpw : (msgs 0).Pairwise (fun a b => a.offset < b.offset) := by
      obtain ⟨ms, _, e⟩ := hR.reads 0 (by omega)
      rw [e]
      exact received_ordered _ _ _
    refine List.Pairwise.filter _ ?_
    unfold KSys.seen
    rw [List.map_take]
    refine (List.Pairwise.sublist (List.take_sublist _ _) ?_)
    rw [hout]
    exact List.Pairwise.sublist (C67_prefix hv.w 0).sublist hpw

/-- **C133**, one partition: if every message of a block not yet applied is kept, and is at most the rollback before the messages of the stored block, a life that has come to rest completes
the chain. -/
theorem C133_single_partial (hL : KafkaLogs C cfg n side all P) (hC : C.Lawful) (hrb : 0 ≤ rb) (h0 : GoodString res0) (h1 : P.np = 1) {applied : List PB} {res : GoStr}
    {r0 : List RMsg} (hl : KLives C P rb cfg res0 applied res r0) {s : SentBlock} {a c : List SentBlock} (hs : all = a ++ s :: c) (hn : applied.length = a.length + 1)
    {m : GMap GoStr Int} (hp : parseResumption res = .ok m) {old now upto : Nat → Nat} {start : Nat → Int}
    {msgs : Nat → List RMsg} (hR : ReadsParts P m rb (startAt cfg applied).lastHash old now upto start msgs) {k0 k : KSys}
    (hk0 : KSys.start (startAt cfg applied) P.np start msgs = .ok k0) (hk : KSys.Steps C env o topic k0 k) (hstuck : ∀ k', ¬ KSys.Step C env o topic k k')
    (hg : Genuine env k.sys) (hwarm : msgs 0 ≠ [])
    (hkept : ∀ r, m.get? (sourceOf (P.topic 0) (P.part 0)) = some r → rb ≤ r → old 0 ≤ r - rb)
    (hlog : ∀ sb ∈ c, ∀ x ∈ sb.msgs, ∃ z ∈ sb.msgs, z.key = x.key ∧ ∃ j, (P.full 0)[j]? = some z ∧ old 0 ≤ j ∧ j < upto 0 ∧
      ∀ (i : Nat) y, (P.full 0)[i]? = some y → blockOf y.key = s.args.hash → (i : Int) ≤ j + rb) :
    AllExact cfg.tracked all (applied ++ k.sys.omp.log.flatMap addedBy) := by
  have hone : ∀ i, i < P.np → i = 0 := by omega
  obtain ⟨b, hb⟩ : ∃ b, applied.getLast? = some b := by
    cases h : applied.getLast? with
    | none => rw [List.getLast?_eq_none_iff.mp h] at hn; simp at hn
    | some b => exact ⟨b, rfl⟩
  have hbh : b.hash = s.args.hash := by
    have hx := (C133_lives hL hC hrb h0 hl).2 (s, b) ?_
    · exact hx.hash
    · rw [List.getLast?_eq_getElem?, hn] at hb
      refine List.mem_iff_getElem?.mpr ⟨a.length, ?_⟩
      rw [List.getElem?_zip_eq_some]
      exact ⟨by rw [hs]; simp, by simpa using hb⟩
  have hdrop : all.drop applied.length = c := by
    rw [hs, hn, List.drop_append]
    simp
  refine C133_end_partial hL hC hrb h0 hl hb hp hR hk0 hk hstuck hg (fun i hi => by rw [hone i hi]; exact hwarm) (fun i hi => by rw [hone i hi]; exact hkept) ?_
  rw [hdrop]
  intro sb hsb x hx
  obtain ⟨w, hw, hwx, j, hj, ho, hu, hbe⟩ := hlog sb hsb x hx
  obtain ⟨_, _, _, i4⟩ := klives hL hC hrb h0 hl
  have hown : ∀ y ∈ r0, blockOf y.key = b.hash → y.offset ≤ (j : Int) + rb := by
    intro y hy hh
    obtain ⟨i, hi, j', y', hy', rfl⟩ := i4 y hy
    rw [hone i hi] at hy'
    exact hbe j' y' hy' (by rw [← hbh]; exact hh)
  refine ⟨w, hw, hwx, 0, by omega, j, hj, ho, hu, fun y hy hh _ => hown y hy hh, ?_⟩
  intro l1 y l2 e hh z hz _
  have hord := klives_ordered h1 hl
  have h3 := hown y (by rw [e]; simp) hh.1
  rw [e] at hord
  have := (List.pairwise_append.mp hord).2.2 z hz y (by simp)
  exact Int.le_trans (Int.le_of_lt this) h3

/-- The condition on the log holds without any rollback if each block's messages were written after those of the blocks before it. -/
theorem in_order (hC : C.Lawful) {all a c : List SentBlock} {s : SentBlock} (hcor : ∀ s ∈ all, s.Correct C) (hh : (all.map (·.args.hash)).Nodup) (hs : all = a ++ s :: c) :
    ∀ sb ∈ c, ∀ x ∈ sb.msgs, ∃ j, (all.flatMap (·.msgs))[j]? = some x ∧ j < (all.flatMap (·.msgs)).length ∧
      ∀ (i : Nat) y, (all.flatMap (·.msgs))[i]? = some y → blockOf y.key = s.args.hash → (i : Int) ≤ j := by
  intro sb hsb x hx
  have e : all.flatMap (·.msgs) = (a ++ [s]).flatMap (·.msgs) ++ c.flatMap (·.msgs) := by rw [hs]; simp
  obtain ⟨j, hj⟩ := List.mem_iff_getElem?.mp (List.mem_flatMap.mpr ⟨sb, hsb, hx⟩)
  have hj' : (all.flatMap (·.msgs))[((a ++ [s]).flatMap (·.msgs)).length + j]? = some x := by
    rw [e, List.getElem?_append_right (Nat.le_add_right ..), Nat.add_sub_cancel_left, hj]
  refine ⟨_, hj', (List.getElem?_eq_some_iff.mp hj').1, ?_⟩
  intro i y hy hb
  by_cases hi : i < ((a ++ [s]).flatMap (·.msgs)).length
  · omega
  · rw [e, List.getElem?_append_right (by omega)] at hy
    obtain ⟨s', hs', hy'⟩ := List.mem_flatMap.mp (List.mem_of_getElem? hy)
    have := copy_hash hC (hcor s' (by rw [hs]; simp [hs'])) (m := ⟨y.key, y.value, 0, []⟩) ⟨y, hy', rfl, rfl⟩
    rw [hb] at this
    rw [hs, List.map_append, List.map_cons] at hh
    exact ((List.nodup_cons.mp (List.nodup_append.mp hh).2.1).1 (List.mem_map.mpr ⟨s', hs', this.symm⟩)).elim

end

/-- What one would like of `Start`: that every message the broker keeps is read, if it is at most the rollback behind the recorded offset. -/
def Spec.WindowRead : Prop := ∀ (full : List Msg) (old now : Nat) (m : GMap GoStr Int) (rb : Int) (h : Hash) (tp : GoStr) (p s : Int), old ≤ now → now ≤ full.length →
  h ≠ Hash.zero → 0 ≤ rb → (∀ r, m.get? (sourceOf tp p) = some r → InInt64 r) →
  KC.start (kept full old now).broker { resumption := m, rollback := rb, startHash := h } tp p = .ok s → ∀ j : Nat, old ≤ j → j < now →
  (∀ r, m.get? (sourceOf tp p) = some r → r ≤ j + rb) → s = OffsetOldest ∨ s ≤ j

/-- **C133**, refuted: if the broker has dropped the first message of the rollback window, `Start` begins at the recorded offset itself, and nothing before it is read although it is kept. -/
theorem C133_refuted_retention : ¬ WindowRead := by
  intro h
  have := h (List.replicate 10 ⟨[], []⟩) 5 10 (GMap.empty.insert (str "t:0") 8) 5 (exHash 1) (str "t") 0 8 (by decide) (by decide) (by decide) (by decide)
    (by intro r hr; rw [GMap.get?_insert] at hr; split at hr
        · cases hr; decide
        · simp at hr)
    (by decide +kernel) 6 (by decide) (by decide)
    (by intro r hr; rw [GMap.get?_insert] at hr; split at hr
        · cases hr; decide
        · simp at hr)
  revert this
  decide

/-! ## Example: three blocks on one partition, two lives, no rollback -/

/-- Everything runs to rest. -/
theorem kafka_rests (k0 : KSys) : ∃ k, KSys.Steps Avro.codec exEnv .plain (str "d") k0 k ∧ ∀ k', ¬ KSys.Step Avro.codec exEnv .plain (str "d") k k' := by
  apply Classical.byContradiction
  intro hno
  have hno : ∀ k, KSys.Steps Avro.codec exEnv .plain (str "d") k0 k → ∃ k', KSys.Step Avro.codec exEnv .plain (str "d") k k' := by
    intro k hk
    apply Classical.byContradiction
    intro h
    exact hno ⟨k, hk, fun k' hk' => h ⟨k', hk'⟩⟩
  let f : Nat → { k : KSys // KSys.Steps Avro.codec exEnv .plain (str "d") k0 k } := fun n => Nat.rec ⟨k0, .refl⟩
    (fun _ k => ⟨Classical.choose (hno k.1 k.2), .step k.2 (Classical.choose_spec (hno k.1 k.2))⟩) n
  exact k_no_endless (fun n => (f n).1) (fun n => Classical.choose_spec (hno (f n).1 (f n).2))

/-- Three blocks. -/
def exSecond : BlockArgs := { exLater with number := 6, hash := exHash 3, parentHash := exHash 1, weight := 310 }
def exThirdPlain : BlockArgs := { exLater with number := 7, hash := exHash 4, parentHash := exHash 3, weight := 320 }
def exPlain (a : BlockArgs) : SentBlock := ⟨exProducer.schema, a, exSubs, msgsOf a⟩
def exThree : List SentBlock := [exPlain exLater, exPlain exSecond, exPlain exThirdPlain]

/-- One partition with the messages of the blocks, in order. -/
def exPartition : Partitions := ⟨1, fun _ => str "t", fun _ => 0, fun _ => exThree.flatMap (·.msgs)⟩

theorem exThree_logs : KafkaLogs Avro.codec exSysCfg 4 [] exThree exPartition := by
  have hcor : ∀ s ∈ exThree, s.Correct Avro.codec := by
    intro s hs
    simp only [exThree, List.mem_cons, List.not_mem_nil, or_false] at hs
    rcases hs with rfl | rfl | rfl
    · exact ⟨produced_nobatch rfl (by decide +kernel) _, exLater_wf⟩
    · exact ⟨produced_nobatch rfl (by decide +kernel) _, { exLater_wf with weight := by decide, number := by decide, lenWeight := by decide +kernel }⟩
    · exact ⟨produced_nobatch rfl (by decide +kernel) _, { exLater_wf with weight := by decide, number := by decide, lenWeight := by decide +kernel }⟩
  refine ⟨⟨hcor, ⟨rfl, rfl, show (200 : Int) < 300 by decide, rfl, rfl, show (300 : Int) < 310 by decide, rfl, rfl,
        show (310 : Int) < 320 by decide, trivial⟩, by decide, ⟨by decide, by decide⟩, by decide, by simp, by simp, ?_⟩, ?_, ?_, ?_, ?_⟩
  · intro s _ x hx
    simp [exSysCfg, exCfg] at hx
  · intro i _ m hm
    obtain ⟨s, hs, h⟩ := List.mem_flatMap.mp hm
    exact .inr (.inr ⟨s, hs, h⟩)
  · intro i _
    exact show CleanName (str "t") by decide +kernel
  · intro i _
    exact show (exThree.flatMap (·.msgs)).length ≤ maxInt64 by decide +kernel
  · intro i j hi hj _ _
    simp only [exPartition] at hi hj
    omega

/-- A consumer of the three blocks, started with an empty resumption string, is stopped when its application has applied one block; started again from the stored string, without any
rollback, it completes the chain. All hypotheses of the theorems of C133 are met. -/
example : ∃ (b : PB) (res : GoStr) (r : List RMsg) (m : GMap GoStr Int) (start : Nat → Int) (msgs : Nat → List RMsg) (k0 k : KSys),
    KLives Avro.codec exPartition 0 exSysCfg [] [b] res r ∧ parseResumption res = .ok m ∧
    ReadsParts exPartition m 0 b.hash (fun _ => 0) (fun _ => (exThree.flatMap (·.msgs)).length) (fun _ => (exThree.flatMap (·.msgs)).length) start msgs ∧
    KSys.start (startAt exSysCfg [b]) 1 start msgs = .ok k0 ∧ KSys.Steps Avro.codec exEnv .plain (str "d") k0 k ∧
    (∀ k', ¬ KSys.Step Avro.codec exEnv .plain (str "d") k k') ∧ msgs 0 ≠ [] ∧ (k.sys.omp.log.flatMap addedBy).length = 2 := by
  have hL := exThree_logs
  have hC := Avro.codec_lawful
  have hg : GoodString [] := by
    intro m hm k v hv
    rw [show parseResumption [] = .ok GMap.empty from rfl] at hm
    cases hm
    simp at hv
  have hks : ∀ (applied : List PB) start msgs, ∃ k0, KSys.start (startAt exSysCfg applied) 1 start msgs = .ok k0 := by
    intro applied start msgs
    unfold startAt
    cases applied.getLast? <;> exact ⟨_, rfl⟩
  have hgen : ∀ k : KSys, Genuine exEnv k.sys := by intro k t n hn; simp [exEnv] at hn
  have hpos : 0 < (exThree.flatMap (·.msgs)).length := by decide +kernel
  have hget : ∀ {m : GMap GoStr Int} {h : Hash} {start : Nat → Int} {msgs : Nat → List RMsg}, h ≠ Hash.zero → (∀ k v, m.get? k = some v → InInt64 v) →
      ReadsParts exPartition m 0 h (fun _ => 0) (fun _ => (exThree.flatMap (·.msgs)).length) (fun _ => (exThree.flatMap (·.msgs)).length) start msgs →
      ∀ (j : Nat) x, (exThree.flatMap (·.msgs))[j]? = some x → (∀ r, m.get? (sourceOf (str "t") 0) = some r → r ≤ j + 0) →
        ∃ y ∈ msgs 0, y.key = x.key ∧ y.value = x.value := by
    intro m h start msgs hh hi hR j x hj hr
    have hns : ∀ i, i < exPartition.np → start i ≠ OffsetNewest := fun i hi' =>
      start_not_newest (kc := ⟨m, 0, h, false⟩) hh (Int.le_refl 0) (fun r hr => hi _ r hr) (hR.starts i hi')
    refine ⟨_, hR.get hns (i := 0) (show 0 < 1 by decide) hj (List.getElem?_eq_some_iff.mp hj).1 ?_, rfl, rfl⟩
    refine start_reads (Nat.zero_le _) (Nat.le_refl _) hh (by decide) (hR.starts 0 (show 0 < 1 by decide)) (fun r hr => hi _ r hr) ?_ (Nat.zero_le _) hr
    intro r _ hle
    simp only [Int.natCast_zero]
    omega
  obtain ⟨start, msgs, hR⟩ := C133_starts hL hC (Int.le_refl 0) hg .first (show parseResumption [] = .ok GMap.empty from rfl)
    (old := fun _ => 0) (now := fun _ => (exThree.flatMap (·.msgs)).length) (fun i hi => ⟨Nat.zero_le _, Nat.le_refl _⟩) (fun i hi r hr => by simp at hr)
  obtain ⟨k0, hk0⟩ := hks [] start msgs
  obtain ⟨k, hk, hstuck⟩ := kafka_rests k0
  have hread := fun j x hj => hget (h := exSysCfg.lastHash) (by decide) (by intro k v hv; simp at hv) hR j x hj (by intro r hr; simp at hr)
  have hwarm : ∀ i, i < exPartition.np → msgs i ≠ [] := by
    intro i hi
    have : i = 0 := by simp only [exPartition] at hi; omega
    subst this
    obtain ⟨y, hy, _⟩ := hread 0 _ (List.getElem?_eq_getElem hpos)
    exact List.ne_nil_of_mem hy
  have hfull := C133_rest hL hC (Int.le_refl 0) hg .first rfl hR hk0 hk hstuck (hgen k) hwarm (by
    intro sb hsb x hx
    obtain ⟨j, hj⟩ := List.mem_iff_getElem?.mp (List.mem_flatMap.mpr ⟨sb, List.mem_of_mem_drop hsb, hx⟩)
    obtain ⟨y, hy, e1, e2⟩ := hread j x hj
    exact ⟨0, show 0 < 1 by decide, y, hy, e1, x, hx, e1, e2⟩)
  have hl3 := hfull.length
  rw [List.nil_append] at hl3
  cases hadd : k.sys.omp.log.flatMap addedBy with
  | nil => rw [hadd] at hl3; simp [exThree] at hl3
  | cons b bs =>
    have hlife : KLives Avro.codec exPartition 0 exSysCfg [] ([] ++ ([] ++ [b])) (b.resumptionString .plain) (k.seen.filter (fun m => Ordinary m)) :=
      .life .first rfl hR hk0 hk (by rw [hadd]; simp)
    simp only [List.nil_append] at hlife
    obtain ⟨m, hm⟩ := C133_string hL hC (Int.le_refl 0) hg hlife (by simp)
    obtain ⟨_, i2, i3, _⟩ := klives hL hC (Int.le_refl 0) hg hlife
    obtain ⟨m', hm', _, hrec⟩ := i2.some b rfl
    rw [hm] at hm'
    cases hm'
    have hrange : ∀ i, i < exPartition.np → ∀ r, m.get? (sourceOf (exPartition.topic i) (exPartition.part i)) = some r →
        0 ≤ r ∧ r + 1 ≤ ((exThree.flatMap (·.msgs)).length : Int) := by
      intro i _ r hr
      obtain ⟨_, _, _, j, rfl, hj⟩ := hrec _ r hr
      have : j < (exThree.flatMap (·.msgs)).length := hj
      omega
    obtain ⟨start', msgs', hR'⟩ := C133_starts hL hC (Int.le_refl 0) hg hlife hm
      (old := fun _ => 0) (now := fun _ => (exThree.flatMap (·.msgs)).length) (fun i hi => ⟨Nat.zero_le _, Nat.le_refl _⟩)
      (fun i hi r hr => by have := hrange i hi r hr; exact ⟨by simpa using this.1, by omega⟩)
    obtain ⟨k0', hk0'⟩ := hks [b] start' msgs'
    obtain ⟨k', hk', hstuck'⟩ := kafka_rests k0'
    have hwarm' : msgs' 0 ≠ [] := by
      have hlt : (exThree.flatMap (·.msgs)).length - 1 < (exThree.flatMap (·.msgs)).length := by omega
      obtain ⟨y, hy, _⟩ := hget i3 (stored_int64 hL hrec) hR' _ _ (List.getElem?_eq_getElem hlt) (by
        intro r hr
        have := hrange 0 (show 0 < 1 by decide) r hr
        omega)
      exact List.ne_nil_of_mem hy
    have hend := C133_single_partial hL hC (Int.le_refl 0) hg rfl hlife (a := []) (s := exPlain exLater) (c := [exPlain exSecond, exPlain exThirdPlain]) rfl rfl hm hR' hk0'
      hk' hstuck' (hgen k') hwarm' (by
        intro r _ hle
        simp only [Int.natCast_zero]
        omega) (by
        intro sb hsb x hx
        obtain ⟨j, h1, h2, h3⟩ := in_order (all := exThree) (s := exPlain exLater) hC (fun s hs => hL.around.correct s (by simpa using hs))
          (by simpa using hL.around.hashes) (a := []) rfl sb hsb x hx
        exact ⟨x, hx, rfl, j, h1, Nat.zero_le _, h2, fun i y hy hb => by have := h3 i y hy hb; omega⟩)
    have hlen := hend.length
    simp only [exThree, List.length_append, List.length_cons, List.length_nil] at hlen
    exact ⟨b, _, _, m, start', msgs', k0', k', hlife, hm, hR', hk0', hk', hstuck', hwarm', by omega⟩

end Verif
