import Verif.Props.MixedForks
import Verif.Props.KafkaForks
import Verif.Props.WebsocketForks
/-!
# C155: from a Kafka producer and a websocket producer to the subscribers of a consumer of both

C153 takes the calls of the transports as given. Here the calls come from the two transports: a Kafka producer and a websocket producer are given the same tree of blocks, and
a consumer reads both, `transports/resolver.go:94-107`.
-/
namespace Verif

/-! ## Specification -/

/-- What the reading goroutine of the Kafka transport has handed to the processor so far: the messages of a beginning of the partition, but for heartbeats and pings,
`transports/kafka.go:653-695`. -/
def Spec.ReadOf (ms ks : List RMsg) : Prop := ∃ pre post, ms = pre ++ post ∧ ks = pre.filter (fun m => Spec.Ordinary m)

/-- The reading goroutine of the websocket transport by itself: items are read, connections break and are made again, `transports/websockets.go:326-467`. The blocks it
completes are the calls of `ProcessCompleteBatch` it makes. -/
inductive Spec.WsReads (c : WConn) (first : List WMsg) (later : List (List WMsg)) : WConn → List WMsg → List (List WMsg) → Prop
  | refl : WsReads c first later c first later
  | read {d d' : WConn} {m : WMsg} {ms : List WMsg} {l : List (List WMsg)} {mo : MapOrder} : WsReads c first later d (m :: ms) l → (∀ n h, m ≠ .reorg n h) →
      d.step mo m = .ok d' → WsReads c first later d' ms l
  | reconnect {d : WConn} {ms : List WMsg} {l : List (List WMsg)} : WsReads c first later d [] (ms :: l) → WsReads c first later d.reconnect ms l

/-- A tree of blocks is published over Kafka, each after its parent, and is carried over websocket connections, on which no batch message comes before the parent
is complete. -/
structure Spec.BothWays (C : Codec) (E : ErrSched) (dp : Producer) (root : WsArgs) (bs : List WsArgs) (kp : KP) (cfg : Config) (start : Int) (ms : List RMsg)
    (conns : List (List WMsg)) : Prop where
  kafka : Spec.KafkaTreeLink C E dp root bs kp cfg start ms
  carried : Spec.WsCarried bs conns
  follow : Spec.WsFollow root bs conns

/-- All of the partition has been read, or all of the connections, which carried every block. -/
def Spec.OneReadAll (bs : List WsArgs) (ms ks : List RMsg) (conns : List (List WMsg)) (todo : List WMsg) (later : List (List WMsg)) : Prop :=
  ks = ms.filter (fun m => Spec.Ordinary m) ∨ todo = [] ∧ later = [] ∧ Spec.WsComplete bs conns

open Spec

variable {C : Codec} {env : Env} {o : MapOrder}

theorem Spec.Weave.mem {ls : List (List Call)} {cs : List Call} (h : Weave ls cs) : ∀ c, c ∈ cs ↔ ∃ l ∈ ls, c ∈ l := by
  induction h with
  | nil h => intro c; simp; intro l hl hc; rw [h l hl] at hc; simp at hc
  | @cons pre l post d cs _ ih =>
    intro c
    rw [List.mem_cons, ih c]
    constructor
    · rintro (rfl | ⟨k, hk, hc⟩)
      · exact ⟨c :: l, by simp, by simp⟩
      · rcases List.mem_append.mp hk with hk | hk
        · exact ⟨k, by simp [hk], hc⟩
        · rcases List.mem_cons.mp hk with rfl | hk
          · exact ⟨d :: k, by simp, by simp [hc]⟩
          · exact ⟨k, by simp [hk], hc⟩
    · rintro ⟨k, hk, hc⟩
      rcases List.mem_append.mp hk with hk | hk
      · exact .inr ⟨k, by simp [hk], hc⟩
      · rcases List.mem_cons.mp hk with rfl | hk
        · rcases List.mem_cons.mp hc with rfl | hc
          · exact .inl rfl
          · exact .inr ⟨l, by simp, hc⟩
        · exact .inr ⟨k, by simp [hk], hc⟩

/-! ## The websocket transport -/

section
variable {cfg : Config} {root : WsArgs} {tree : List WsArgs} {num : Int} {first : List WMsg} {later : List (List WMsg)}

theorem wsteps_inner {w0 w : WSys} (h : WSys.Steps C env o w0 w) {s : Sys} (hs : Sys.Steps C env o w.sys s) : WSys.Steps C env o w0 { w with sys := s } := by
  generalize e : w.sys = s1 at hs
  induction hs with
  | refl => subst e; exact h
  | step _ h2 ih => exact .step ih (.inner h2)

/-- What the reading goroutine does by itself it also does in front of a processor of its own. -/
theorem wsreads_alone (h : WsTree cfg root tree (first :: later)) (hwin : (tree.length : Int) ≤ 2 * cfg.reorgThreshold) {w0 : WSys}
    (h0 : WSys.start cfg num first later = .ok w0) {c : WConn} {t : List WMsg} {l : List (List WMsg)} (hr : WsReads (WConn.new num cfg.lastHash) first later c t l) :
    ∃ w, WSys.Steps C env o w0 w ∧ w.conn = c ∧ w.todo = t ∧ w.later = l ∧ w.sys.todo = [] ∧ w.sys.out = [] := by
  induction hr with
  | refl =>
    unfold WSys.start at h0
    obtain ⟨s, h1, h0⟩ := bind_ok.mp h0
    cases h0
    unfold Sys.start at h1
    obtain ⟨mp, _, h1⟩ := bind_ok.mp h1
    obtain ⟨omp, _, h1⟩ := bind_ok.mp h1
    cases h1
    exact ⟨_, .refl, rfl, rfl, rfl, rfl, rfl⟩
  | @read d d' m ms l mo _ hm hs ih =>
    obtain ⟨w, g1, rfl, g3, rfl, g5, g6⟩ := ih
    have g7 := WSys.Steps.step g1 (.read (mo := mo) g5 g6 g3 hm hs)
    generalize ew : ({ w with conn := d', todo := ms, sys := { w.sys with todo := (handed (d'.out.drop w.conn.out.length)).map Call.block } } : WSys) = w1 at g7
    have hc : w1.conn = d' ∧ w1.todo = ms ∧ w1.later = w.later := by subst ew; exact ⟨rfl, rfl, rfl⟩
    have hv := wsinv_steps h.toWsCarried rfl h0 g7
    obtain ⟨s0, r1, r2⟩ := hv.run
    obtain ⟨s', k1, k2⟩ := w1.sys.drains (C := C) (env := env) (o := o) ((Piped.start (C := C) (env := env) (o := o) r1).steps r2).room
    have g8 := wsteps_inner g7 k1
    have hnf := ((C89_progress (C := C) (env := env) (o := o) h hwin h0).2 _ g8).1
    rcases k2 with k2 | k2
    · exact ⟨_, g8, hc.1, hc.2.1, hc.2.2, k2.1, k2.2.1⟩
    · exact (hnf (.inr k2)).elim
  | @reconnect d ms l _ ih =>
    obtain ⟨w, g1, rfl, g3, g4, g5, g6⟩ := ih
    exact ⟨_, .step g1 (.reconnect g5 g6 g3 g4), rfl, rfl, rfl, g5, g6⟩

/-- **C155**, the websocket transport: the blocks it hands over are blocks given to the producer, each after its parent, and when everything has been read, all of them. -/
theorem C155_websocket (h : WsTree cfg root tree (first :: later)) (hwin : (tree.length : Int) ≤ 2 * cfg.reorgThreshold) (hf : WsFollow root tree (first :: later))
    {w0 : WSys} (h0 : WSys.start cfg num first later = .ok w0) {c : WConn} {t : List WMsg} {l : List (List WMsg)}
    (hr : WsReads (WConn.new num cfg.lastHash) first later c t l) :
    (∀ pb ∈ handed c.out, ∃ b ∈ tree, WsSeen b.1 b.2 pb) ∧
    (∀ l1 pb l2, handed c.out = l1 ++ pb :: l2 → pb.hash = root.1.hash ∨ ∃ a ∈ l1, a.hash = pb.parentHash) ∧
    (t = [] → l = [] → WsComplete tree (first :: later) → ∀ b ∈ tree, ∃ pb ∈ handed c.out, pb.hash = b.1.hash) := by
  obtain ⟨w, g1, rfl, rfl, rfl, g5, g6⟩ := wsreads_alone (C := Avro.codec) (env := exEnv) (o := .plain) h hwin h0 hr
  have hv := wsinv_steps h.toWsCarried rfl h0 g1
  have hseen : ∀ pb ∈ handed w.conn.out, ∃ b ∈ tree, WsSeen b.1 b.2 pb := by
    intro pb hpb
    obtain ⟨x, hx, rfl⟩ := mem_handed.mp hpb
    obtain ⟨b, hb, he⟩ := hv.exact x hx
    exact ⟨b, hb, seen_of_exact he (h.weight b hb) rfl⟩
  refine ⟨hseen, ?_, ?_⟩
  · intro l1 pb l2 e
    obtain ⟨a1, a2, e1, k5, k6⟩ := List.filterMap_eq_append_iff.mp (show List.filterMap _ w.conn.out = l1 ++ pb :: l2 from e)
    obtain ⟨j1, x, j2, e2, k7, k8, k9⟩ := List.filterMap_eq_cons_iff.mp k6
    cases x with
    | reorg => cases k8
    | block x =>
      simp only [Option.some.injEq] at k8
      subst k8
      obtain ⟨s, hs', he, g | ⟨p, hp, hn, a, ha, ea⟩⟩ := ws_after h.toWsCarried hf.after h0 g1 (a1 ++ j1) x j2 (by rw [e1, e2]; simp)
      · exact .inl (show x.hash = _ by rw [he.hash, g])
      · right
        rcases List.mem_append.mp ha with ha | ha
        · exact ⟨a.pb, by rw [← k5]; exact mem_handed.mpr ⟨a, ha, rfl⟩, show a.hash = x.parentHash by rw [ea, hn, he.parent]⟩
        · have := k7 _ ha
          cases this
  · intro ht hl ha b hb
    have := hv.one ht hl g5 hb (ha b hb)
    obtain ⟨pb, hpb, e⟩ := List.mem_map.mp this
    obtain ⟨s0, r1, r2⟩ := hv.run
    obtain ⟨omp0, ds, done, rest, i1, i2, i3, i4, i5, i6, i7⟩ := blocks_inside r1 r2
    have : pb.bald ∈ done.map PB.bald := by rw [← i7]; exact List.mem_map.mpr ⟨pb, hpb, rfl⟩
    obtain ⟨y, hy, ey⟩ := List.mem_map.mp this
    exact ⟨y, by rw [i2]; simp [hy], by rw [← e]; exact (show y.bald.hash = pb.bald.hash by rw [ey])⟩

end

/-! ## Both transports -/

section
variable {E : ErrSched} {dp : Producer} {root : WsArgs} {bs : List WsArgs} {kp : KP} {cfg : Config} {start : Int} {ms ks : List RMsg}
  {num : Int} {first : List WMsg} {later : List (List WMsg)} {c : WConn} {t : List WMsg} {l : List (List WMsg)} {calls : List Call}

/-- The tree of a websocket consumer. -/
theorem Spec.BothWays.wsTree (h : BothWays C E dp root bs kp cfg start ms conns) : WsTree cfg root bs conns := by
  have hT := h.kafka.tree
  have hmap : (bs.map wsSent).map (·.args.hash) = (bs.map (givenBlock dp)).map (·.args.hash) := by simp [wsSent, givenBlock, Function.comp_def]
  have hback : ∀ b, givenBlock dp b = givenBlock dp root → b = root := by
    intro b e
    have ha : b.1 = root.1 := by injection e
    have hs : b.2 = root.2 := by injection e
    exact Prod.ext ha hs
  refine ⟨h.carried, ⟨?_, hT.hash, hT.weight, hT.heavy, by rw [hmap]; exact hT.low, ?_, by rw [hmap]; exact hT.hashes, ?_⟩⟩
  · obtain ⟨b, hb, e⟩ := List.mem_map.mp hT.mem
    rw [hback b e] at hb
    exact List.mem_map.mpr ⟨root, hb, rfl⟩
  · intro s hs
    obtain ⟨b, hb, rfl⟩ := List.mem_map.mp hs
    rcases hT.parents (givenBlock dp b) (List.mem_map.mpr ⟨b, hb, rfl⟩) with e | ⟨p, hp, e1, e2, e3⟩
    · rw [hback b e]; exact .inl rfl
    · obtain ⟨q, hq, rfl⟩ := List.mem_map.mp hp
      exact .inr ⟨wsSent q, List.mem_map.mpr ⟨q, hq, rfl⟩, e1, e2, e3⟩
  · intro s hs x hx
    obtain ⟨b, hb, rfl⟩ := List.mem_map.mp hs
    exact hT.whitelist (givenBlock dp b) (List.mem_map.mpr ⟨b, hb, rfl⟩) x hx

/-- **C155**: the calls of the two transports, however they are interleaved, are what C153 asks for. -/
theorem C155_calls (h : BothWays C E dp root bs kp cfg start ms (first :: later)) (hC : C.Lawful) (hwin : (bs.length : Int) ≤ 2 * cfg.reorgThreshold)
    (hk : ReadOf ms ks) (hr : WsReads (WConn.new num cfg.lastHash) first later c t l) (hw : Weave [ks.map Call.msg, (handed c.out).map Call.block] calls)
    {s0 : Sys} (hst : Sys.start cfg calls = .ok s0) :
    ∃ (tree : List SentBlock) (r : SentBlock), tree.map (fun s => (s.args, s.subs)) = bs ∧ (∀ s ∈ tree, s.schema = dp.schema) ∧ MixedTree C cfg r tree calls ∧
      BlocksFollow r tree calls ∧ (∀ pb, .block pb ∈ calls → ∃ s ∈ tree, WsSeen s.args s.subs pb) ∧
      (OneReadAll bs ms ks (first :: later) t l → ∀ s ∈ tree, Arrived calls s) := by
  obtain ⟨w0, h0⟩ : ∃ w0, WSys.start cfg num first later = .ok w0 := by
    unfold Sys.start at hst
    obtain ⟨mp, h1, hst⟩ := bind_ok.mp hst
    obtain ⟨omp, h2, hst⟩ := bind_ok.mp hst
    unfold WSys.start Sys.start
    rw [h1, h2]
    exact ⟨_, rfl⟩
  obtain ⟨w1, w2, w3⟩ := C155_websocket h.wsTree hwin h.follow h0 hr
  obtain ⟨tree, r, h1, h2, h3, _, h4⟩ := h.kafka.feedOrder hC
  obtain ⟨pre, post, rfl, rfl⟩ := hk
  have hof : ∀ b ∈ bs, ∃ s ∈ tree, (s.args, s.subs) = b := fun b hb => by rw [← h1] at hb; exact List.mem_map.mp hb
  have hblk : ∀ pb, .block pb ∈ calls → pb ∈ handed c.out := by
    intro pb hpb
    have := (hw.mem _).mp hpb
    simpa using this
  have hseen : ∀ pb, .block pb ∈ calls → ∃ s ∈ tree, WsSeen s.args s.subs pb := by
    intro pb hpb
    obtain ⟨b, hb, he⟩ := w1 pb (hblk pb hpb)
    obtain ⟨s, hs, rfl⟩ := hof b hb
    exact ⟨s, hs, he⟩
  have hM : MixedTree C cfg r tree calls := by
    refine ⟨h3.toHeaderTree, h3.correct, ?_, ?_⟩
    · intro m hm
      have hm := (hw.mem _).mp hm
      have hm : m ∈ pre ∧ Ordinary m := by simpa using hm
      rcases h3.only 0 Nat.one_pos m (by simp [hm.1]) with e | e | e
      · exact (hm.2.1 e).elim
      · exact (hm.2.2.2.1 e).elim
      · exact e
    · intro pb hpb
      obtain ⟨s, hs, he⟩ := hseen pb hpb
      exact ⟨s, hs, ⟨he.number, he.weight, he.hash, he.parent⟩⟩
  have hkept : ∀ {p : SentBlock} {a : List RMsg}, p ∈ tree → AllArrive p.msgs a → AllArrive p.msgs (a.filter (fun m => Ordinary m)) := by
    intro p a hp ha x hx
    obtain ⟨m, hm, e1, e2⟩ := ha x hx
    exact ⟨m, List.mem_filter.mpr ⟨hm, by simpa using copy_ordinary hC (h3.correct p hp) e2⟩, e1, e2⟩
  have hin : ∀ (a : List RMsg), messagesIn (a.map Call.msg) = a := by
    intro a
    induction a with
    | nil => rfl
    | cons x a ih => rw [List.map_cons, messagesIn, ih]
  refine ⟨tree, r, h1, h2, hM, C153_transports hw ?_, hseen, ?_⟩
  · intro k hk
    have hk : k = (pre.filter (fun m => Ordinary m)).map Call.msg ∨ k = (handed c.out).map Call.block := by simpa using hk
    rcases hk with rfl | rfl
    · intro l1 x l2 e s hs hb
      obtain ⟨k1, k2, e1, rfl, e3⟩ := List.map_eq_append_iff.mp e
      obtain ⟨m, k3, rfl, rfl, e4⟩ := List.map_eq_cons_iff.mp e3
      obtain ⟨a, b, e5, e6, _⟩ := split_filter e1
      rcases h4 a m (b ++ post) (by rw [e5]; simp) hb.1 s hs hb.2 with g | ⟨p, hp, g, ha⟩
      · exact .inl g
      · refine .inr ⟨p, hp, g, .inl ?_⟩
        rw [hin, ← e6]
        exact hkept hp ha
    · intro l1 x l2 e s hs hb
      obtain ⟨k1, k2, e1, rfl, e3⟩ := List.map_eq_append_iff.mp e
      obtain ⟨pb, k3, rfl, rfl, e4⟩ := List.map_eq_cons_iff.mp e3
      obtain ⟨b, hb', he⟩ := w1 pb (by rw [e1]; simp)
      obtain ⟨s', hs', rfl⟩ := hof b hb'
      have hb : pb.hash = s.args.hash := hb
      have hss : s' = s := hM.inj _ _ hs' hs (he.hash.symm.trans hb)
      subst hss
      rcases w2 k1 pb k3 e1 with g | ⟨a, ha, g⟩
      · left
        refine hM.inj _ _ hs hM.mem ?_
        rw [← hb, g, hM.hash]
        exact h.kafka.tree.hash
      · right
        obtain ⟨b, hb2, he2⟩ := w1 a (by rw [e1]; simp [ha])
        obtain ⟨p, hp, rfl⟩ := hof b hb2
        refine ⟨p, hp, ?_, .inr ⟨a, List.mem_map.mpr ⟨a, ha, rfl⟩, he2.hash⟩⟩
        rw [← he2.hash, g, he.parent]
  · rintro (e | ⟨e1, e2, e3⟩) s hs
    · refine .inl ?_
      have hall : AllArrive s.msgs (pre ++ post) := by
        intro x hx
        obtain ⟨i, hi, m, hm, e1, e2⟩ := h3.all s hs x hx
        exact ⟨m, hm, e1, e2⟩
      have := hkept hs hall
      rw [← e] at this
      intro x hx
      obtain ⟨m, hm, g⟩ := this x hx
      exact ⟨m, mem_messagesIn.mpr ((hw.mem _).mpr ⟨_, List.mem_cons_self, List.mem_map.mpr ⟨m, hm, rfl⟩⟩), g⟩
    · obtain ⟨pb, hpb, g⟩ := w3 e1 e2 e3 (s.args, s.subs) (by rw [← h1]; exact List.mem_map.mpr ⟨s, hs, rfl⟩)
      exact .inr ⟨pb, (hw.mem _).mpr ⟨(handed c.out).map Call.block, by simp, List.mem_map.mpr ⟨pb, hpb, rfl⟩⟩, g⟩

/-- **C155**, while running: however much each transport has brought and however their calls are interleaved, no goroutine of the consumer is about to fault, every execution can
be completed, and the head of the subscribers is the first-handled block of maximal weight. -/
theorem C155_running (h : BothWays C E dp root bs kp cfg start ms (first :: later)) (hC : C.Lawful) (hwin : (bs.length : Int) ≤ 2 * cfg.reorgThreshold)
    (hk : ReadOf ms ks) (hr : WsReads (WConn.new num cfg.lastHash) first later c t l) (hw : Weave [ks.map Call.msg, (handed c.out).map Call.block] calls)
    {s0 s : Sys} (hst : Sys.start cfg calls = .ok s0) (hs : CausalSteps C env o s0 s) :
    ¬ Faulty C env o s ∧ (∃ s', Sys.Steps C env o s s' ∧ s'.Drained) ∧ (∀ n, OOut.evictOlder n ∉ s.omp.log) ∧
      (blocksOf s.ops ≠ [] → FirstHeaviest (blocksOf s.ops) s.omp.lastHash) := by
  obtain ⟨tree, r, h1, h2, hM, hF, _, _⟩ := C155_calls h hC hwin hk hr hw hst
  have hwin' : (tree.length : Int) ≤ 2 * cfg.reorgThreshold := by rw [show tree.length = bs.length by rw [← h1]; simp]; exact hwin
  have hnf := C153_no_fault (env := env) (o := o) hM hC hwin' hst hs.steps
  have hin := hM.inside hC hwin' hF hst hs
  exact ⟨hnf.1, hnf.2, hin.2.1, hin.2.2⟩

/-- **C155**, at the end: when one of the transports has brought everything, whatever the other has, and the calls have been handled, the subscribers hold a chain of the
blocks given to the producers that ends in a block of maximal weight; a consumer that tracks everything has them exactly as they were given. -/
theorem C155_end (h : BothWays C E dp root bs kp cfg start ms (first :: later)) (hC : C.Lawful) (hwin : (bs.length : Int) ≤ 2 * cfg.reorgThreshold)
    (hk : ReadOf ms ks) (hr : WsReads (WConn.new num cfg.lastHash) first later c t l) (hw : Weave [ks.map Call.msg, (handed c.out).map Call.block] calls)
    (ha : OneReadAll bs ms ks (first :: later) t l)
    {s0 s : Sys} (hst : Sys.start cfg calls = .ok s0) (hs : CausalSteps C env o s0 s) (hd : s.Drained) (hg : Heard env s) :
    ∃ base chain top, Replays cfg.lastHash s.omp.log base chain ∧ Linked base chain ∧ endOf base chain = top.1.hash ∧
      top ∈ bs ∧ (∀ b ∈ bs, b.1.weight ≤ top.1.weight) ∧ (∀ pb ∈ chain, ∃ b ∈ bs, pb.hash = b.1.hash) ∧
      ((∀ k, cfg.tracked k = true) → ∀ pb ∈ chain, ∃ b ∈ bs, Exact cfg.tracked dp.schema b.1 b.2 pb) := by
  obtain ⟨tree, r, h1, h2, hM, hF, hseen, harr⟩ := C155_calls h hC hwin hk hr hw hst
  have hwin' : (tree.length : Int) ≤ 2 * cfg.reorgThreshold := by rw [show tree.length = bs.length by rw [← h1]; simp]; exact hwin
  have hmem : ∀ s ∈ tree, (s.args, s.subs) ∈ bs := fun s hs => by rw [← h1]; exact List.mem_map.mpr ⟨s, hs, rfl⟩
  obtain ⟨base, chain, top, g1, g2, g3, g4, g5, g6⟩ := C153_end hM hC hwin' hF (harr ha) hst hs hd hg
  refine ⟨base, chain, (top.args, top.subs), g1, g2, g3, hmem top g4, ?_, ?_, ?_⟩
  · intro b hb
    rw [← h1] at hb
    obtain ⟨s, hs, rfl⟩ := List.mem_map.mp hb
    exact g5 s hs
  · intro pb hpb
    obtain ⟨sb, hsb, he⟩ := g6 pb hpb
    exact ⟨_, hmem sb hsb, (asSent_head he).hash⟩
  · intro ht pb hpb
    obtain ⟨sb, hsb, he⟩ := g6 pb hpb
    have := C153_exact hM ht hseen hsb he
    rw [h2 sb hsb] at this
    exact ⟨_, hmem sb hsb, this⟩

/-- **C155**, with both producers: a Kafka producer and a websocket producer that are given the same tree of blocks, each after its parent, give what is asked for, and the
websocket connection carries every block. -/
theorem C155_published (hk : KafkaTreeLink C E dp root bs kp cfg start ms) {ops : List WOp} (hp : WsPublishes bs ops) (ho : WsInOrder root bs ops) (o' : MapOrder) :
    BothWays C E dp root bs kp cfg start ms [(wsSentBy ops).map (WMsg.json o')] ∧ WsComplete bs [(wsSentBy ops).map (WMsg.json o')] := by
  have hn : (bs.map (·.1.hash)).Nodup := by
    have := (List.nodup_cons.mp hk.tree.hashes).2
    simpa [givenBlock, Function.comp_def] using this
  obtain ⟨h1, h2⟩ := hp.carried hn (fun b hb => (hk.wf b hb).weight) o'
  exact ⟨⟨hk, h1, ho.follow hp hn o'⟩, h2⟩

end

/-! ## Example -/

/-- A block with contents and a sub-batch, which was processed last, and two blocks on it. -/
def exBothTree : List WsArgs := [(exBlock, exSubs)] ++ [(bareBlock 3 1 6 310, exSubs)] ++ [(bareBlock 5 1 6 320, exSubs)]

/-- A Kafka producer that was given the blocks. -/
def exBothAdd (kp : KP) (a : BlockArgs) : KP :=
  (kp.addBlock Avro.codec (fun _ => none) .plain .plain a.number a.hash a.parentHash a.weight a.updates a.deletes a.batches).1

def exBothKP : KP := exBothAdd (exBothAdd (exPublish (newKP exProducer) exBlock) (bareBlock 3 1 6 310)) (bareBlock 5 1 6 320)

theorem exBoth_publishes : Publishes Avro.codec (fun _ => none) (newKP exProducer) exBothTree exBothKP := by
  have pair : ∀ {α : Type} {r : α × Option Err}, r.2.isNone = true → r = (r.1, none) := by
    rintro α ⟨x, y⟩ h
    cases y with
    | none => rfl
    | some e => simp at h
  have hl : ∀ x, x ∈ [exHash 9] ↔ ∃ path, exBlock.batches.get? path = some x := by
    intro x
    simp only [exBlock, List.mem_singleton, GMap.get?_insert]
    constructor
    · rintro rfl; exact ⟨str "state/sub", by simp⟩
    · rintro ⟨path, h⟩
      split at h
      · exact (Option.some.inj h).symm
      · simp at h
  have hn : ∀ (i j : Nat) (n w : Int), ∀ x, x ∈ ([] : List Hash) ↔ ∃ path, (bareBlock i j n w).batches.get? path = some x := by
    intro i j n w x
    simp [bareBlock, GMap.get?_empty]
  refine .block (l := []) (o := .plain) (o' := .plain) (.block (l := []) (o := .plain) (o' := .plain)
    (.block (bs := []) (l := [exHash 9]) (o := .plain) (o' := .plain) .nil (pair (by decide +kernel))
    (.sub (o := .plain) (o' := .plain) (l := []) .nil (by simp) (pair (by decide +kernel))) hl)
    (pair (by decide +kernel)) .nil (hn _ _ _ _)) (pair (by decide +kernel)) .nil (hn _ _ _ _)

/-- A ping, a heartbeat and everything that was sent. -/
def exBothPart : List RMsg := recv (⟨PingType :: (exHash 5).bytes, []⟩ :: ⟨[], []⟩ :: exBothKP.sent.map Prod.snd)

theorem exBoth_three {P : WsArgs → Prop} (h1 : P (exBlock, exSubs)) (h2 : P (bareBlock 3 1 6 310, exSubs)) (h3 : P (bareBlock 5 1 6 320, exSubs)) : ∀ b ∈ exBothTree, P b := by
  intro b hb
  simp only [exBothTree, List.cons_append, List.nil_append, List.mem_cons, List.not_mem_nil, or_false] at hb
  rcases hb with rfl | rfl | rfl
  · exact h1
  · exact h2
  · exact h3

theorem exBoth_kafka : KafkaTreeLink Avro.codec (fun _ => none) exProducer (exBlock, exSubs) exBothTree exBothKP exForkCfg 0 exBothPart := by
  refine ⟨exBoth_publishes, exBoth_three exBlock_wf ?_ ?_, ?_, ?_, ?_, ?_⟩
  · exact (bare_correct (hash := 3) (parent := 1) (number := 6) (weight := 310) (by decide) (by decide) (by decide +kernel) (by decide +kernel)).2
  · exact (bare_correct (hash := 5) (parent := 1) (number := 6) (weight := 320) (by decide) (by decide) (by decide +kernel) (by decide +kernel)).2
  · refine ⟨by simp [exBothTree], rfl, rfl, show (0 : Int) < 300 by decide, ?_, ?_, ?_, ?_⟩
    · show exHash 2 ∉ [exHash 1, exHash 3, exHash 5]
      decide
    · intro s hs
      simp only [exBothTree, List.cons_append, List.nil_append, List.map_cons, List.map_nil, List.mem_cons, List.not_mem_nil, or_false] at hs
      rcases hs with rfl | rfl | rfl
      · exact .inl rfl
      · exact .inr ⟨givenBlock exProducer (exBlock, exSubs), by simp [exBothTree], rfl, rfl, show (300 : Int) < 310 by decide⟩
      · exact .inr ⟨givenBlock exProducer (exBlock, exSubs), by simp [exBothTree], rfl, rfl, show (300 : Int) < 320 by decide⟩
    · show [Hash.zero, exHash 1, exHash 3, exHash 5].Nodup
      decide
    · intro s _ x hx
      simp [exForkCfg, exCfg] at hx
  · intro l1 b l2 e
    rcases l1 with _ | ⟨x, l1⟩
    · simp [exBothTree] at e; exact .inl e.1.symm
    · simp [exBothTree] at e
      obtain ⟨rfl, e⟩ := e
      right
      refine ⟨_, List.mem_cons_self, ?_⟩
      have : b ∈ [(bareBlock 3 1 6 310, exSubs), (bareBlock 5 1 6 320, exSubs)] := by rw [e]; simp
      simp only [List.mem_cons, List.not_mem_nil, or_false] at this
      rcases this with rfl | rfl <;> rfl
  · decide +kernel
  · refine ⟨_, List.mem_cons_self, ?_⟩
    decide

/-- What a websocket producer is given: the fork comes first. -/
def exBothOps : List WOp := [.add .plain exBlock, .send (exHash 9) (exSubs (exHash 9)), .add .plain (bareBlock 5 1 6 320), .add .rev (bareBlock 3 1 6 310)]

theorem exBoth_id (id : Hash) : (∃ p, exBlock.batches.get? p = some id) ↔ id = exHash 9 := by
  have e : exBlock.batches.entries = [(str "state/sub", exHash 9)] := by decide +kernel
  simp only [GMap.get?_eq_some_iff, e, List.mem_cons, Prod.mk.injEq, List.not_mem_nil, or_false]
  constructor
  · rintro ⟨p, _, h⟩; exact h
  · intro h; exact ⟨_, rfl, h⟩

theorem exBoth_ws : WsPublishes exBothTree exBothOps := by
  have hno : ∀ {i j : Nat} {n w : Int} {id : Hash} {P : Prop}, (∃ p, (bareBlock i j n w).batches.get? p = some id) → P := by
    rintro i j n w id P ⟨p, h⟩
    simp [bareBlock, GMap.get?_empty] at h
  have hbare : ∀ i j n w, Textual (bareBlock i j n w) exSubs := by
    intro i j n w
    refine ⟨ascii_all rfl, ascii_all rfl, ascii_all rfl, ?_, ?_⟩
    · exact fun p id hp => hno ⟨p, hp⟩
    · exact fun p id hp => hno ⟨p, hp⟩
  refine ⟨exBoth_three ?_ (hbare _ _ _ _) (hbare _ _ _ _), exBoth_three (by decide) (by decide) (by decide), exBoth_three (by decide +kernel) (by decide +kernel) (by decide +kernel),
    exBoth_three ?_ ?_ ?_, ?_, ?_, ?_, ?_⟩
  · exact ⟨ascii_all (by decide +kernel), ascii_all (by decide +kernel), ascii_all (by decide +kernel), fun _ _ _ => ascii_all (by simp only [exSubs]; decide +kernel),
      fun _ _ _ => ascii_all (by simp only [exSubs]; decide +kernel)⟩
  · refine agree_of_list (ids := [exHash 9]) (l := exBlock.updates.entries ++ (exSubs (exHash 9)).updates.entries)
      (fun id h => by simpa using (exBoth_id id).mp h) (by decide +kernel) (by decide +kernel) (by decide +kernel)
  · exact agree_of_list (ids := []) (l := []) (fun id h => hno h) (by decide +kernel) (by decide +kernel) (by decide +kernel)
  · exact agree_of_list (ids := []) (l := []) (fun id h => hno h) (by decide +kernel) (by decide +kernel) (by decide +kernel)
  · exact .cons _ (.swap _ _ _)
  · refine exBoth_three (exBoth_three ?_ ?_ ?_) (exBoth_three ?_ ?_ ?_) (exBoth_three ?_ ?_ ?_)
    · intros; rfl
    all_goals first | exact fun _ _ h => hno h | exact fun _ h _ => hno h
  · intro id s hs b _ _
    simp only [exBothOps, List.mem_cons, WOp.send.injEq, reduceCtorEq, false_or, List.not_mem_nil, or_false] at hs
    obtain ⟨rfl, rfl⟩ := hs
    revert b
    exact fun b hb _ => exBoth_three (P := fun b => exSubs (exHash 9) = b.2 (exHash 9)) rfl rfl rfl b hb
  · refine exBoth_three ?_ (fun _ h => hno h) (fun _ h => hno h)
    intro id h
    refine ⟨[], _, _, rfl, ?_⟩
    rw [(exBoth_id id).mp h]
    simp

theorem exBoth_order : WsInOrder (exBlock, exSubs) exBothTree exBothOps := by
  intro l o a r e
  have hA : ∀ (x : List WOp), ∀ id, (∃ q, exBlock.batches.get? q = some id) → WOp.send id (exSubs id) ∈ WOp.send (exHash 9) (exSubs (exHash 9)) :: x := by
    intro x id h
    rw [(exBoth_id id).mp h]; simp
  rcases l with _ | ⟨x1, _ | ⟨x2, _ | ⟨x3, _ | ⟨x4, l⟩⟩⟩⟩ <;> simp [exBothOps] at e
  · exact .inl (by rw [← e.1.2])
  · obtain ⟨rfl, rfl, ⟨_, rfl⟩, _⟩ := e
    exact .inr ⟨(exBlock, exSubs), by simp [exBothTree], rfl, [], .plain, _, rfl, hA _⟩
  · obtain ⟨rfl, rfl, rfl, ⟨_, rfl⟩, _⟩ := e
    exact .inr ⟨(exBlock, exSubs), by simp [exBothTree], rfl, [], .plain, _, rfl, hA _⟩

/-- Reading a list of items to its end. -/
theorem wsreads_all {c : WConn} {first : List WMsg} {ms : List WMsg} (hm : ∀ m ∈ ms, (∀ n h, m ≠ .reorg n h) ∧ m ≠ .hollow) {d : WConn}
    (h : WsReads c first [] d ms []) : ∃ d', WsReads c first [] d' [] [] := by
  induction ms generalizing d with
  | nil => exact ⟨d, h⟩
  | cons m ms ih =>
    obtain ⟨d', hd⟩ := wstep_ok (c := d) (mo := .plain) (hm m (by simp)).2
    exact ih (fun x hx => hm x (by simp [hx])) (.read h (hm m (by simp)).1 hd)

/-- C155: from Kafka only a ping and a heartbeat and half of the messages have been read, from the websocket everything. The subscribers are at the fork. -/
example : ∃ first ks c calls s0 s base chain, BothWays Avro.codec (fun _ => none) exProducer (exBlock, exSubs) exBothTree exBothKP exForkCfg 0 exBothPart [first] ∧
    ReadOf exBothPart ks ∧ ks ≠ [] ∧ ks.length < exBothPart.length - 2 ∧ WsReads (WConn.new 5 exForkCfg.lastHash) first [] c [] [] ∧
    Weave [ks.map Call.msg, (handed c.out).map Call.block] calls ∧ OneReadAll exBothTree exBothPart ks [first] [] [] ∧ Sys.start exForkCfg calls = .ok s0 ∧
    CausalSteps Avro.codec exEnv .plain s0 s ∧ s.Drained ∧ Heard exEnv s ∧ Replays exForkCfg.lastHash s.omp.log base chain ∧ endOf base chain = exHash 5 ∧
    ∀ k, exForkCfg.tracked k = true := by
  obtain ⟨h1, h2⟩ := C155_published exBoth_kafka exBoth_ws exBoth_order .rev
  obtain ⟨c, hr⟩ := wsreads_all (c := WConn.new 5 exForkCfg.lastHash) (fun m hm => ⟨(h1.carried.only _ List.mem_cons_self m hm).1, (h1.carried.only _ List.mem_cons_self m hm).2.1⟩) .refl
  have hk : ReadOf exBothPart ((exBothPart.take 5).filter (fun m => Ordinary m)) := ⟨_, exBothPart.drop 5, (List.take_append_drop _ _).symm, rfl⟩
  generalize eks : (exBothPart.take 5).filter (fun m => Ordinary m) = ks at hk
  have hlen : ks ≠ [] ∧ ks.length < exBothPart.length - 2 := by subst eks; decide +kernel
  have hW : Weave [ks.map Call.msg, (handed c.out).map Call.block] (ks.map Call.msg ++ (handed c.out).map Call.block) := by
    have a := Weave.take (pre := [[]]) (post := []) (l := []) (cs := []) (.nil (by simp)) ((handed c.out).map Call.block)
    have b := Weave.take (pre := []) a (ks.map Call.msg)
    simpa using b
  obtain ⟨s0, hst⟩ : ∃ s0, Sys.start exForkCfg (ks.map Call.msg ++ (handed c.out).map Call.block) = .ok s0 := ⟨_, rfl⟩
  have hwin : (exBothTree.length : Int) ≤ 2 * exForkCfg.reorgThreshold := by show (3 : Int) ≤ 2 * 2; decide
  obtain ⟨s, hs, hd⟩ := (C155_running (env := exEnv) (o := .plain) h1 Avro.codec_lawful hwin hk hr hW hst .refl).2.1
  have hcs := causal_of_none (fun _ => rfl) hs
  have hh : Heard exEnv s := fun t _ n hn => by simp [exEnv] at hn
  have hone : OneReadAll exBothTree exBothPart ks [(wsSentBy exBothOps).map (WMsg.json .rev)] [] [] := .inr ⟨rfl, rfl, h2⟩
  obtain ⟨base, chain, top, g1, g2, g3, g4, g5, g6, g7⟩ := C155_end h1 Avro.codec_lawful hwin hk hr hW hone hst hcs hd hh
  refine ⟨_, ks, c, _, s0, s, base, chain, h1, hk, hlen.1, hlen.2, hr, hW, hone, hst, hcs, hd, hh, g1, ?_, fun _ => rfl⟩
  rw [g3]
  have h320 := g5 (bareBlock 5 1 6 320, exSubs) (by simp [exBothTree])
  simp only [exBothTree, List.cons_append, List.nil_append, List.mem_cons, List.not_mem_nil, or_false] at g4
  rcases g4 with rfl | rfl | rfl
  · exact absurd h320 (show ¬ (320 : Int) ≤ 300 by decide)
  · exact absurd h320 (show ¬ (320 : Int) ≤ 310 by decide)
  · rfl

end Verif
