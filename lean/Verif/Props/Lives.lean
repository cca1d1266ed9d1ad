import Verif.Props.Resume
import Verif.Props.Restart
/-! C130: a consumer that is stopped and started again, any number of times. -/
namespace Verif

/-- The configuration of a consumer that is started after `applied` has been applied: it is told the number, hash and weight of the last block applied. -/
def Spec.startAt (cfg : Config) (applied : List PB) : Config :=
  match applied.getLast? with
  | none => cfg
  | some b => { cfg with lastEmittedNum := b.number, lastHash := b.hash, lastWeight := b.weight }

/-- `Lives C cfg blocks applied r`: over several lives of a consumer its application has applied, and stored, the blocks `applied`. Each life starts from the
last block stored, receives messages of `blocks` (whichever, in whatever order, however often), runs under any schedule and iteration order, and is stopped at
any moment, when the application has applied some of the blocks it was told to add. `r` was to be received in the life in which the last block was applied.
(Lives in which nothing was applied leave no trace.) -/
inductive Spec.Lives (C : Codec) (cfg : Config) (blocks : List SentBlock) : List PB → List RMsg → Prop
  | first : Spec.Lives C cfg blocks [] []
  | life {applied told : List PB} {b : PB} {r0 r : List RMsg} {env : Env} {o : MapOrder} {s0 s : Sys} :
      Spec.Lives C cfg blocks applied r0 → (∀ m ∈ r, ∃ sb ∈ blocks, Copy sb.msgs m) →
      Sys.start (Spec.startAt cfg applied) (r.map Call.msg) = .ok s0 → Sys.Steps C env o s0 s →
      told ++ [b] <+: s.omp.log.flatMap addedBy → Spec.Lives C cfg blocks (applied ++ (told ++ [b])) r

open Spec

/-- `applied` are the blocks `a`, exactly as produced. -/
structure Spec.AllExact (tracked : GoStr → Bool) (a : List SentBlock) (applied : List PB) : Prop where
  length : applied.length = a.length
  exact : ∀ x ∈ a.zip applied, Exact tracked x.1.schema x.1.args x.1.subs x.2

variable {C : Codec} {env : Env} {o : MapOrder} {cfg : Config} {n : Int} {side all : List SentBlock}

/-- The next block is applied. -/
theorem Spec.Around.step {old : List SentBlock} {x : SentBlock} {c : List SentBlock} (h : Around C cfg n old (x :: c)) {pb : PB}
    (he : Exact cfg.tracked x.schema x.args x.subs pb) : Around C (startAt cfg [pb]) x.args.number (old ++ [x]) c := by
  obtain ⟨l1, l2, l3, l4⟩ := h.links
  have hnd : (x.args.hash :: c.map (·.args.hash)).Nodup := by
    have := h.hashes
    rw [List.map_append] at this
    exact (List.nodup_append.mp this).2.1
  have hst : x.args.parentHash ∉ x.args.hash :: c.map (·.args.hash) := by rw [l1]; exact h.stored
  have hmem : ∀ s, s ∈ old ++ [x] ++ c → s ∈ old ++ x :: c := by intro s hs; simpa using hs
  refine ⟨fun s hs => h.correct s (hmem s hs), ?_, by simpa using h.hashes, ⟨?_, fun s hs => h.nonzero.2 s (hmem s hs)⟩, ?_, ?_, ?_,
    fun s hs => h.whitelist s (hmem s hs)⟩
  · show ChainOf pb.hash x.args.number pb.weight c
    rw [he.hash, he.weight]; exact l4
  · show pb.hash ≠ _
    rw [he.hash]; exact h.nonzero.2 x (by simp)
  · show pb.hash ∉ _
    rw [he.hash]; exact (List.nodup_cons.mp hnd).1
  · intro s hs
    show _ ∧ s.args.weight ≤ pb.weight ∧ s.args.parentHash ∉ pb.hash :: _
    rw [he.hash, he.weight]
    rcases List.mem_append.mp hs with hs | hs
    · obtain ⟨o1, o2, o3⟩ := h.older s hs
      exact ⟨by omega, by omega, fun hin => o3 (List.mem_cons_of_mem _ hin)⟩
    · rw [List.mem_singleton.mp hs]
      exact ⟨Int.le_refl _, Int.le_refl _, hst⟩
  · intro s hs p hp e
    rcases List.mem_append.mp hs with hs | hs
    · rcases List.mem_append.mp hp with hp | hp
      · exact h.grows s hs p hp e
      · rw [List.mem_singleton.mp hp] at e
        exact ((h.older s hs).2.2 (by rw [e]; simp)).elim
    · rw [List.mem_singleton.mp hs] at e ⊢
      rcases List.mem_append.mp hp with hp | hp
      · have := (h.older p hp).2.1
        omega
      · rw [List.mem_singleton.mp hp] at e
        exact (hst (by rw [e]; simp)).elim

theorem startAt_tracked (applied : List PB) : (startAt cfg applied).tracked = cfg.tracked := by
  unfold startAt; split <;> rfl

theorem startAt_append (a b : List PB) : startAt (startAt cfg a) b = startAt cfg (a ++ b) := by
  rcases List.eq_nil_or_concat b with rfl | ⟨b', x, rfl⟩
  · simp [startAt]
  · rw [List.concat_eq_append]
    have h1 : (b' ++ [x]).getLast? = some x := by simp
    have h2 : (a ++ (b' ++ [x])).getLast? = some x := by rw [← List.append_assoc]; simp
    unfold startAt
    rw [h1, h2]
    cases a.getLast? <;> rfl

/-- Some blocks are applied. -/
theorem Spec.Around.steps {old a c : List SentBlock} {applied : List PB} (h : Around C cfg n old (a ++ c)) (he : AllExact cfg.tracked a applied) :
    ∃ n', Around C (startAt cfg applied) n' (old ++ a) c := by
  induction a generalizing cfg n old applied with
  | nil =>
    have := he.length
    simp only [List.length_nil, List.length_eq_zero_iff] at this
    subst this
    exact ⟨n, by simpa [startAt] using h⟩
  | cons x a ih =>
    cases applied with
    | nil => have := he.length; simp at this
    | cons pb applied =>
      have h1 := he.exact (x, pb) (by simp)
      obtain ⟨n', h2⟩ := ih (applied := applied) (h.step h1) ⟨by have := he.length; simpa using this, fun y hy => by
        rw [startAt_tracked]; exact he.exact y (by simp [hy])⟩
      refine ⟨n', ?_⟩
      rw [startAt_append] at h2
      simpa using h2

theorem allExact_append {tr : GoStr → Bool} {a b : List SentBlock} {x y : List PB} (h1 : AllExact tr a x) (h2 : AllExact tr b y) :
    AllExact tr (a ++ b) (x ++ y) := by
  refine ⟨by simp [h1.length, h2.length], ?_⟩
  rw [List.zip_append h1.length.symm]
  intro z hz
  exact (List.mem_append.mp hz).elim (h1.exact z) (h2.exact z)

/-- A list told so far is exact for the first blocks. -/
theorem allExact_prefix {tr : GoStr → Bool} {c : List SentBlock} {l t : List PB} (hle : l.length ≤ c.length)
    (hx : ∀ x ∈ c.zip l, Exact tr x.1.schema x.1.args x.1.subs x.2) (hp : t <+: l) : ∃ c1 c2, c = c1 ++ c2 ∧ AllExact tr c1 t := by
  obtain ⟨u, rfl⟩ := hp
  have hlen : t.length ≤ c.length := by rw [List.length_append] at hle; omega
  refine ⟨c.take t.length, c.drop t.length, (List.take_append_drop ..).symm, ?_⟩
  have h1 : t.length = (c.take t.length).length := by rw [List.length_take]; omega
  refine ⟨h1, fun x hx' => hx x ?_⟩
  conv => arg 1; rw [← List.take_append_drop t.length c]
  rw [List.zip_append h1.symm]
  exact List.mem_append_left _ hx'

/-- Where the application is: some first blocks of the chain have been applied, and the rest is around it. -/
theorem lives_place (h : Around C cfg n side all) (hC : C.Lawful) {applied : List PB} {r : List RMsg}
    (hl : Lives C cfg (side ++ all) applied r) : ∃ a c, all = a ++ c ∧ AllExact cfg.tracked a applied := by
  induction hl with
  | first => exact ⟨[], all, rfl, ⟨rfl, by simp⟩⟩
  | life _ hr hst hs hp ih =>
    obtain ⟨a, c, rfl, he⟩ := ih
    obtain ⟨n', h'⟩ := h.steps he
    have hco : Continued C _ n' (side ++ a) c _ := ⟨h', fun m hm => by rw [List.append_assoc]; exact hr m hm⟩
    obtain ⟨-, -, k1, k2⟩ := C129_always hco hC hst hs
    obtain ⟨c1, c2, rfl, hx⟩ := allExact_prefix k1 k2 hp
    rw [startAt_tracked] at hx
    exact ⟨a ++ c1, c2, by simp, allExact_append he hx⟩

/-- **C130**: however often the consumer was stopped and started again, and whatever it received in each life, what the application has applied are the first
blocks of the chain, in order, once each, exactly as produced. -/
theorem C130_lives (h : Around C cfg n side all) (hC : C.Lawful) {applied : List PB} {r : List RMsg}
    (hl : Lives C cfg (side ++ all) applied r) :
    applied.length ≤ all.length ∧ ∀ x ∈ all.zip applied, Exact cfg.tracked x.1.schema x.1.args x.1.subs x.2 := by
  obtain ⟨a, c, rfl, he⟩ := lives_place h hC hl
  refine ⟨by rw [he.length]; simp, ?_⟩
  conv => enter [x, 1]; rw [← List.append_nil applied]
  rw [List.zip_append he.length.symm]
  simpa using he.exact

/-- **C130**: in no life is the consumer about to fault, and it never tells the application to remove a block. -/
theorem C130_calm (h : Around C cfg n side all) (hC : C.Lawful) {applied : List PB} {r0 r : List RMsg} {s0 s : Sys}
    (hl : Lives C cfg (side ++ all) applied r0) (hr : ∀ m ∈ r, ∃ sb ∈ side ++ all, Copy sb.msgs m)
    (hst : Sys.start (startAt cfg applied) (r.map Call.msg) = .ok s0) (hs : Sys.Steps C env o s0 s) :
    ¬ Faulty C env o s ∧ ∀ a rem, OOut.update a rem ∈ s.omp.log → rem = [] := by
  obtain ⟨a, c, rfl, he⟩ := lives_place h hC hl
  obtain ⟨n', h'⟩ := h.steps he
  have hco : Continued C _ n' (side ++ a) c _ := ⟨h', fun m hm => by rw [List.append_assoc]; exact hr m hm⟩
  obtain ⟨k1, k2, -⟩ := C129_always hco hC hst hs
  refine ⟨k1, fun a rem hin => ?_⟩
  rcases k2 _ hin with ⟨a', e⟩ | ⟨sb, -, e⟩
  · cases e; rfl
  · cases e

/-- **C130**, the end: a life in which all messages of the blocks not yet applied are received, and in which everything received is handled, completes the
chain: what was applied before it, followed by what it tells the application to add, is the whole chain. -/
theorem C130_end (h : Around C cfg n side all) (hC : C.Lawful) {applied : List PB} {r0 r : List RMsg} {s0 s : Sys}
    (hl : Lives C cfg (side ++ all) applied r0) (hr : ∀ m ∈ r, ∃ sb ∈ side ++ all, Copy sb.msgs m)
    (ha : ∀ sb ∈ all.drop applied.length, AllArrive sb.msgs r)
    (hst : Sys.start (startAt cfg applied) (r.map Call.msg) = .ok s0) (hs : Sys.Steps C env o s0 s) (hd : s.Drained) (hg : Genuine env s) :
    AllExact cfg.tracked all (applied ++ s.omp.log.flatMap addedBy) := by
  obtain ⟨a, c, rfl, he⟩ := lives_place h hC hl
  obtain ⟨n', h'⟩ := h.steps he
  have hco : Continued C _ n' (side ++ a) c _ := ⟨h', fun m hm => by rw [List.append_assoc]; exact hr m hm⟩
  rw [he.length, List.drop_left] at ha
  obtain ⟨-, -, -, k2⟩ := C129_always hco hC hst hs
  have k1 := C129_end hco hC ha hst hs hd hg
  rw [startAt_tracked] at k2
  exact allExact_append he ⟨k1, k2⟩

/-- The last block applied was emitted in the life recorded. -/
theorem lives_last {blocks : List SentBlock} {applied : List PB} {r : List RMsg} (hl : Lives C cfg blocks applied r) {b : PB}
    (hb : applied.getLast? = some b) : ∃ cfg' env' mp0 mp ms rest, newMP cfg' = .ok mp0 ∧ r = ms ++ rest ∧ mp0.run C env' ms = .ok mp ∧ b ∈ mp.emitted := by
  cases hl with
  | first => simp at hb
  | @life applied told b' r0 r env o s0 s _ hr hst hs hp =>
    have : (applied ++ (told ++ [b'])).getLast? = some b' := by rw [← List.append_assoc]; simp
    rw [this] at hb
    cases hb
    have hq := (Piped.start (C := C) (env := env) (o := o) hst).steps hs
    obtain ⟨mp0, hn, hrun⟩ := hq.consists.mp
    obtain ⟨ms, rest, h1, h2, h3⟩ : ∃ ms rest, r = ms ++ rest ∧ ms.map Call.msg = s.calls ∧ rest.map Call.msg = s.todo :=
      List.map_eq_append_iff.mp hq.consists.calls
    rw [← h2] at hrun
    exact ⟨_, env, mp0, s.mp, ms, rest, hn, h1, calls_msgs.mp hrun, added_emitted hst hs b (hp.subset (by simp))⟩

/-- **C130**, from the resumption tokens: the application stores with its last block that block's `Resumption()`. If every message of the blocks not yet applied
is in the logs and at most `rb` behind the stored block, a consumer that reads the logs from the stored offsets, moved back by the rollback `rb`, completes the
chain. -/
theorem C130_resumed (h : Around C cfg n side all) (hC : C.Lawful) {applied : List PB} {r0 r log : List RMsg} {s0 s : Sys} {b : PB} {rb : Int}
    (hl : Lives C cfg (side ++ all) applied r0) (hb : applied.getLast? = some b)
    (hlog : ∀ sb ∈ all.drop applied.length, ∀ x ∈ sb.msgs, ∃ m ∈ log, m.key = x.key ∧ Copy sb.msgs m ∧ Behind rb b.hash r0 m)
    (hres : RestartReads rb b log r) (hr : ∀ m ∈ r, ∃ sb ∈ side ++ all, Copy sb.msgs m)
    (hst : Sys.start (startAt cfg applied) (r.map Call.msg) = .ok s0) (hs : Sys.Steps C env o s0 s) (hd : s.Drained) (hg : Genuine env s) :
    AllExact cfg.tracked all (applied ++ s.omp.log.flatMap addedBy) := by
  refine C130_end h hC hl hr ?_ hst hs hd hg
  obtain ⟨cfg', env', mp0, mp, ms, rest, hn, e, hrun, hem⟩ := lives_last hl hb
  intro sb hsb x hx
  obtain ⟨m, hm, h1, h2, hbe⟩ := hlog sb hsb x hx
  refine ⟨m, hres m hm fun off ho => behind_reads hn hrun hem ⟨?_, ?_⟩ ho, h1, h2⟩
  · intro y hy; exact hbe.own y (by rw [e]; simp [hy])
  · intro l1 y l2 e' hh; exact hbe.before l1 y (l2 ++ rest) (by rw [e, e']; simp) hh

/-! ## Examples -/

/-- `exBlock` and two blocks on top of it, and the messages of all three, last block first. -/
theorem exAround : ∃ all log, all.length = 3 ∧ Around Avro.codec exSysCfg 4 [] all ∧ (∀ m ∈ log, ∃ sb ∈ all, Copy sb.msgs m) ∧
    ∀ sb ∈ all, AllArrive sb.msgs log := by
  obtain ⟨all, log, hl, hE, ha, _⟩ := exSys
  have hh := hE.hashes
  refine ⟨all, log, by simpa using congrArg List.length hl, ⟨fun s hs => hE.correct s hs, hE.links, ?_, ⟨?_, ?_⟩, ?_, by simp, by simp, fun s hs => hE.whitelist s hs⟩, hE.only, ha⟩
  · exact (List.nodup_cons.mp (List.nodup_cons.mp hh).2).2
  · intro e; exact (List.nodup_cons.mp hh).1 (by rw [e]; simp)
  · intro s hs e; exact (List.nodup_cons.mp hh).1 (by rw [← e]; simp; exact .inr ⟨s, hs, rfl⟩)
  · exact (List.nodup_cons.mp (List.nodup_cons.mp hh).2).1

/-- A complete life in the environment `exEnv`. -/
theorem exLives {applied : List PB} {r0 r : List RMsg} {all : List SentBlock} (h : Around Avro.codec exSysCfg 4 [] all)
    (hl : Lives Avro.codec exSysCfg all applied r0) (hr : ∀ m ∈ r, ∃ sb ∈ all, Copy sb.msgs m) :
    ∃ s0 s, Sys.start (startAt exSysCfg applied) (r.map Call.msg) = .ok s0 ∧ Sys.Steps Avro.codec exEnv .plain s0 s ∧ s.Drained ∧ Genuine exEnv s := by
  have hst : ∃ s0, Sys.start (startAt exSysCfg applied) (r.map Call.msg) = .ok s0 := by
    unfold startAt
    cases applied.getLast? <;> exact ⟨_, rfl⟩
  obtain ⟨s0, hst⟩ := hst
  obtain ⟨a, c, rfl, he⟩ := lives_place (side := []) h Avro.codec_lawful hl
  obtain ⟨n', h'⟩ := h.steps he
  obtain ⟨s, hs, hd⟩ := C129_completes (env := exEnv) (o := .plain) (old := [] ++ a) ⟨h', hr⟩ Avro.codec_lawful hst .refl
  exact ⟨s0, s, hst, hs, hd, by intro t n hn; simp [exEnv] at hn⟩

/-- Offsets are bounded. -/
theorem offsets_bound (l : List RMsg) : ∃ B : Int, ∀ x ∈ l, -B ≤ x.offset ∧ x.offset ≤ B := by
  induction l with
  | nil => exact ⟨0, by simp⟩
  | cons m l ih =>
    obtain ⟨B, hB⟩ := ih
    refine ⟨B.natAbs + m.offset.natAbs, fun x hx => ?_⟩
    rcases List.mem_cons.mp hx with rfl | hx
    · omega
    · have := hB x hx
      omega

/-- Two lives: in the first everything is received but the consumer is stopped when the application has applied one block; the second starts from that block,
receives everything again, and completes the chain. The hypotheses of `C130_lives`, `C130_calm`, `C130_end` and `C130_resumed` are met. -/
example : ∃ (all : List SentBlock) (log : List RMsg) (b : PB) (rb : Int) (s0 s : Sys), all.length = 3 ∧ Around Avro.codec exSysCfg 4 [] all ∧
    Lives Avro.codec exSysCfg all [b] log ∧ RestartReads rb b log log ∧
    (∀ sb ∈ all.drop 1, ∀ x ∈ sb.msgs, ∃ m ∈ log, m.key = x.key ∧ Copy sb.msgs m ∧ Behind rb b.hash log m) ∧
    Sys.start (startAt exSysCfg [b]) (log.map Call.msg) = .ok s0 ∧ Sys.Steps Avro.codec exEnv .plain s0 s ∧ s.Drained ∧
    (s.omp.log.flatMap addedBy).length = 2 := by
  obtain ⟨all, log, hlen, hA, hlog, hall⟩ := exAround
  obtain ⟨s0, s, hst, hs, hd, hg⟩ := exLives hA .first hlog
  have hfull := C130_end (side := []) hA Avro.codec_lawful .first hlog (fun sb hsb => hall sb (List.mem_of_mem_drop hsb)) hst hs hd hg
  have hl3 := hfull.length
  rw [hlen, List.nil_append] at hl3
  cases hadd : s.omp.log.flatMap addedBy with
  | nil => rw [hadd] at hl3; simp at hl3
  | cons b bs =>
    have hL : Lives Avro.codec exSysCfg all [b] log := .life (told := []) .first hlog hst hs (by rw [hadd]; simp)
    obtain ⟨B, hB⟩ := offsets_bound log
    have hlater : ∀ sb ∈ all.drop 1, ∀ x ∈ sb.msgs, ∃ m ∈ log, m.key = x.key ∧ Copy sb.msgs m ∧ Behind (2 * B) b.hash log m := by
      intro sb hsb x hx
      obtain ⟨m, hm, e1, e2⟩ := hall sb (List.mem_of_mem_drop hsb) x hx
      refine ⟨m, hm, e1, e2, ⟨?_, ?_⟩⟩
      · intro y hy _ _
        have := hB m hm; have := hB y hy
        omega
      · intro l1 y l2 e _ z hz _
        have := hB m hm; have := hB z (by rw [e]; simp [hz])
        omega
    obtain ⟨t0, t, hst', hs', hd', hg'⟩ := exLives hA hL hlog
    have hRR : RestartReads (2 * B) b log log := fun m hm _ => hm
    have hend := C130_resumed (side := []) hA Avro.codec_lawful hL rfl hlater hRR hlog hst' hs' hd' hg'
    have hl := hend.length
    rw [hlen] at hl
    simp only [List.length_append, List.length_singleton] at hl
    exact ⟨all, log, b, 2 * B, t0, t, hlen, hA, hL, hRR, hlater, hst', hs', hd', by omega⟩

end Verif
