import Verif.Props.WebsocketWhole
import Verif.Props.Lives
/-! C139: a websocket consumer that is stopped and started again, any number of times. -/
namespace Verif
open Spec

/-- The number given to a consumer that is started after `applied` has been applied: that of the last block applied. -/
def Spec.startNum (num : Int) (applied : List PB) : Int :=
  match applied.getLast? with
  | none => num
  | some b => b.number

/-- Over several lives of a websocket consumer its application has applied, and stored, the blocks `applied`. Each life starts from the last block stored, makes
any number of connections which break anywhere, runs under any schedule and iteration order, and is stopped at any moment, when the application has applied some of the blocks it was told to add. On each
connection the server answers the request with the blocks that follow the position asked for. -/
inductive Spec.WsLives (C : Codec) (cfg : Config) (num : Int) (bs : List WsArgs) : List PB → Prop
  | first : Spec.WsLives C cfg num bs []
  | life {applied told : List PB} {env : Env} {o : MapOrder} {w0 w : WWhole} :
      Spec.WsLives C cfg num bs applied → WWhole.start (startAt cfg applied) (Spec.startNum num applied) = .ok w0 → WWhole.Steps C env o w0 w → (∀ k, Clean (w.came k)) →
      (∀ k, k < w.life.made → Answers (startAt cfg applied) (Spec.startNum num applied) (bs.drop applied.length) (w.req k) (items (w.came k))) →
      told <+: w.sys.omp.log.flatMap addedBy → Spec.WsLives C cfg num bs (applied ++ told)

/-- `applied` are the blocks `a`, exactly as given to the producer. -/
structure Spec.AllSeen (a : List WsArgs) (applied : List PB) : Prop where
  length : applied.length = a.length
  exact : ∀ x ∈ a.zip applied, WsSeen x.1.1 x.1.2 x.2

variable {C : Codec} {env : Env} {o : MapOrder} {cfg : Config} {n num : Int} {bs : List WsArgs}

/-- The next block is applied. -/
theorem Spec.WsChain.step {x : WsArgs} {c : List WsArgs} (h : WsChain cfg n (x :: c)) {pb : PB} (he : WsSeen x.1 x.2 pb) :
    WsChain (startAt cfg [pb]) x.1.number c := by
  obtain ⟨l1, l2, l3, l4⟩ := h.links
  have hm : ∀ {b}, b ∈ c → b ∈ x :: c := fun hb => List.mem_cons_of_mem _ hb
  refine ⟨fun b hb => h.textual b (hm hb), fun b hb => h.number b (hm hb), fun b hb => h.ids b (hm hb), fun b hb => h.agree b (hm hb),
    fun b hb b' hb' => h.apart b (hm hb) b' (hm hb'), fun b hb => h.weight b (hm hb), ?_, ?_, fun b hb => h.whitelist b (hm hb)⟩
  · show ChainOf pb.hash x.1.number pb.weight _
    rw [he.hash, he.weight]; exact l4
  · show (Hash.zero :: pb.hash :: _).Nodup
    rw [he.hash]
    have h1 := List.nodup_cons.mp h.hashes
    have h2 := List.nodup_cons.mp h1.2
    exact List.nodup_cons.mpr ⟨fun hz => h1.1 (List.mem_cons_of_mem _ hz), h2.2⟩

/-- Some blocks are applied. -/
theorem Spec.WsChain.steps {a c : List WsArgs} {applied : List PB} (h : WsChain cfg n (a ++ c)) (he : AllSeen a applied) :
    ∃ n', WsChain (startAt cfg applied) n' c := by
  induction a generalizing cfg n applied with
  | nil =>
    have := he.length
    simp only [List.length_nil, List.length_eq_zero_iff] at this
    subst this
    exact ⟨n, by simpa [startAt] using h⟩
  | cons x a ih =>
    cases applied with
    | nil => have := he.length; simp at this
    | cons pb applied =>
      obtain ⟨n', h2⟩ := ih (applied := applied) (h.step (he.exact (x, pb) (by simp))) ⟨by have := he.length; simpa using this, fun y hy => he.exact y (by simp [hy])⟩
      refine ⟨n', ?_⟩
      rw [startAt_append] at h2
      simpa using h2

theorem allSeen_append {a b : List WsArgs} {x y : List PB} (h1 : AllSeen a x) (h2 : AllSeen b y) : AllSeen (a ++ b) (x ++ y) := by
  refine ⟨by simp [h1.length, h2.length], ?_⟩
  rw [List.zip_append h1.length.symm]
  intro z hz
  exact (List.mem_append.mp hz).elim (h1.exact z) (h2.exact z)

/-- A list told so far is exact for the first blocks. -/
theorem allSeen_prefix {a : List WsArgs} {l t : List PB} (h : AllSeen a l) (hp : t <+: l) : ∃ a1 a2, a = a1 ++ a2 ∧ AllSeen a1 t := by
  obtain ⟨u, rfl⟩ := hp
  have hlen : t.length ≤ a.length := by have := h.length; rw [List.length_append] at this; omega
  refine ⟨a.take t.length, a.drop t.length, (List.take_append_drop ..).symm, ?_⟩
  have h1 : t.length = (a.take t.length).length := by rw [List.length_take]; omega
  refine ⟨h1, fun x hx' => h.exact x ?_⟩
  conv => arg 1; rw [← List.take_append_drop t.length a]
  rw [List.zip_append h1.symm]
  exact List.mem_append_left _ hx'

theorem Spec.WsSaw.seen {seen : List WsArgs} {log : List OOut} (h : WsSaw bs seen log) : AllSeen seen (log.flatMap addedBy) := ⟨h.length, h.exact⟩

/-- **C139**: over all lives the blocks applied are the first blocks of the chain, each once, in order, exactly as given to the producer. -/
theorem C139_lives (hc : WsChain cfg n bs) {applied : List PB} (hl : WsLives C cfg num bs applied) : ∃ a c, bs = a ++ c ∧ AllSeen a applied := by
  induction hl with
  | first => exact ⟨[], bs, rfl, ⟨rfl, by simp⟩⟩
  | life _ h0 hs hcl hans hp ih =>
    obtain ⟨a, c, rfl, he⟩ := ih
    obtain ⟨n', h'⟩ := hc.steps he
    rw [he.length, List.drop_left] at hans
    obtain ⟨_, seen, ⟨r, rfl⟩, g2, _⟩ := C122_served h' h0 hs hcl hans
    obtain ⟨a1, a2, rfl, g3⟩ := allSeen_prefix g2.seen hp
    exact ⟨a ++ a1, a2 ++ r, by simp, allSeen_append he g3⟩

/-- What a life knows of those before it. -/
theorem wsLife_chain (hc : WsChain cfg n bs) {applied : List PB} (hl : WsLives C cfg num bs applied) :
    ∃ a n', bs = a ++ bs.drop applied.length ∧ AllSeen a applied ∧ WsChain (startAt cfg applied) n' (bs.drop applied.length) := by
  obtain ⟨a, c, rfl, he⟩ := C139_lives hc hl
  obtain ⟨n', h'⟩ := hc.steps he
  rw [he.length, List.drop_left]
  exact ⟨a, n', rfl, he, h'⟩

/-- **C139**: in every life, at every moment, nothing has failed, and what its subscribers were told to add continues what was applied before it: together the first blocks of the chain. Nothing is taken
back. Once all that was handed on has been worked off, it would ask for what follows the last of these blocks. -/
theorem C139_calm (hc : WsChain cfg n bs) {applied : List PB} (hl : WsLives C cfg num bs applied) {w0 w : WWhole}
    (h0 : WWhole.start (startAt cfg applied) (startNum num applied) = .ok w0) (hs : WWhole.Steps C env o w0 w) (hcl : ∀ k, Clean (w.came k))
    (hans : ∀ k, k < w.life.made → Answers (startAt cfg applied) (startNum num applied) (bs.drop applied.length) (w.req k) (items (w.came k))) :
    ¬ w.Faulting C env o ∧ (∀ a r, OOut.update a r ∈ w.sys.omp.log → r = []) ∧
      ∃ a c, bs = a ++ c ∧ AllSeen a (applied ++ w.sys.omp.log.flatMap addedBy) ∧ (w.sys.Drained → w.conn.request = tip num cfg.lastHash a) := by
  obtain ⟨a, n', e, he, h'⟩ := wsLife_chain hc hl
  obtain ⟨g0, seen, ⟨r, hr⟩, g2, g3⟩ := C122_served h' h0 hs hcl hans
  refine ⟨g0, fun a r h => ?_, a ++ seen, r, ?_, allSeen_append he g2.seen, fun hd => (g3 hd).trans ?_⟩
  · rcases g2.only _ h with ⟨a', e⟩ | ⟨b, _, e⟩
    · cases e; rfl
    · cases e
  · rw [List.append_assoc, hr]; exact e
  · rcases List.eq_nil_or_concat seen with rfl | ⟨s', x, rfl⟩
    · rcases List.eq_nil_or_concat a with rfl | ⟨a', y, rfl⟩
      · have := he.length
        simp only [List.length_nil, List.length_eq_zero_iff] at this
        subst this
        rfl
      · rw [List.concat_eq_append] at he ⊢
        have hlen := he.length
        rcases List.eq_nil_or_concat applied with rfl | ⟨p', pb, rfl⟩
        · simp at hlen
        · rw [List.concat_eq_append] at he ⊢
          have hl2 : a'.length = p'.length := by simpa using hlen.symm
          have hx := he.exact (y, pb) (by rw [List.zip_append hl2]; simp)
          have e1 : pb.hash = y.1.hash := hx.hash
          have e2 : pb.number = y.1.number := hx.number
          simp [tip, startAt, startNum, e1, e2]
    · rw [List.concat_eq_append, ← List.append_assoc]
      simp [tip]

/-- **C139**: a life that rests has handled all that has arrived on its connections, and waits for more, or has ended because `Close` was called. -/
theorem C139_rest (hc : WsChain cfg n bs) {applied : List PB} (hl : WsLives C cfg num bs applied) {w0 w : WWhole}
    (h0 : WWhole.start (startAt cfg applied) (startNum num applied) = .ok w0) (hs : WWhole.Steps C env o w0 w) (hcl : ∀ k, Clean (w.came k))
    (hans : ∀ k, k < w.life.made → Answers (startAt cfg applied) (startNum num applied) (bs.drop applied.length) (w.req k) (items (w.came k))) (hst : rests C env o w) :
    w.sys.Drained ∧ w.life.got = (connections w).flatten ∧ ((w.life.place = .ended ∧ w.life.quit = true) ∨ ∃ k, listens w k) := by
  obtain ⟨a, n', e, he, h'⟩ := wsLife_chain hc hl
  exact C122_rest h' h0 hs hcl hans hst

/-- **C139**: if the newest connection of the last life has brought all blocks after the position asked for on it, and the consumer rests, then all lives together have brought the whole chain. -/
theorem C139_end (hc : WsChain cfg n bs) {applied : List PB} (hl : WsLives C cfg num bs applied) {w0 w : WWhole}
    (h0 : WWhole.start (startAt cfg applied) (startNum num applied) = .ok w0) (hs : WWhole.Steps C env o w0 w) (hcl : ∀ k, Clean (w.came k))
    (hans : ∀ k, k < w.life.made → Answers (startAt cfg applied) (startNum num applied) (bs.drop applied.length) (w.req k) (items (w.came k))) (hst : rests C env o w)
    {k : Nat} (hk : k + 1 = w.life.made)
    (hall : ∀ known rest, bs.drop applied.length = known ++ rest → w.req k = tip (startNum num applied) (startAt cfg applied).lastHash known → AllInTurn rest (items (w.came k))) :
    AllSeen bs (applied ++ w.sys.omp.log.flatMap addedBy) := by
  obtain ⟨a, n', e, he, h'⟩ := wsLife_chain hc hl
  have g := C122_all h' h0 hs hcl hans hst hk hall
  have := allSeen_append he g.seen
  rw [← e] at this
  exact this

/-- A life with one connection, on which the server says this. -/
theorem one_connection {cfg : Config} (hr : 0 < cfg.reorgThreshold) (num : Int) (ms : List WMsg) :
    ∃ w0 w, WWhole.start cfg num = .ok w0 ∧ WWhole.Steps C env o w0 w ∧ rests C env o w ∧ w.life.made = 1 ∧ w.req 0 = tip num cfg.lastHash [] ∧
      items (w.came 0) = ms ∧ ∀ k, Clean (w.came k) := by
  obtain ⟨w0, h0⟩ : ∃ w, WWhole.start cfg num = .ok w := by
    have h : ¬ 2 * cfg.reorgThreshold ≤ 0 := by omega
    unfold WWhole.start Sys.start newMP newOMP
    rw [if_neg h, if_neg h]
    exact ⟨_, rfl⟩
  have hq : w0.life = LWs.init ∧ w0.free ∧ w0.conn.request = tip num cfg.lastHash [] ∧ w0.came = fun _ => [] := by
    unfold WWhole.start at h0
    obtain ⟨s, q1, q2⟩ := bind_ok.mp h0
    cases q2
    unfold Sys.start at q1
    obtain ⟨mp, p1, q1⟩ := bind_ok.mp q1
    obtain ⟨omp, p2, q1⟩ := bind_ok.mp q1
    cases q1
    exact ⟨rfl, ⟨rfl, rfl⟩, rfl, rfl⟩
  obtain ⟨hq1, hq2, hq3, hq4⟩ := hq
  obtain ⟨w2, a2, l2, m2, q2, c2⟩ := dials (C := C) (env := env) (o := o) (.refl (w := w0)) (by rw [hq1]; rfl) (by rw [hq1]; rfl) hq2
  have made0 : w0.life.made = 0 := by rw [hq1]; rfl
  rw [made0] at l2 m2 q2
  obtain ⟨w3, a3, l3, m3, q3, c3⟩ := l2.arrives a2 (.granted :: ms.map fun m => .frame (.item m))
  obtain ⟨w4, a4, r4, l4, m4, q4, c4⟩ := l3.comes_to_rest a3
  have came4 : w4.came = fun j => if j = 0 then .granted :: ms.map fun m => .frame (.item m) else [] := by
    rw [c4, c3, c2, hq4]; rfl
  refine ⟨w0, w4, h0, a4, r4, by rw [m4, m3, m2], by rw [q4, q3, q2]; exact hq3, by rw [came4]; exact items_of _, fun k => ?_⟩
  rw [came4]; show Clean (if k = 0 then _ else _)
  split
  · exact clean_of _
  · intro f hf; cases hf

theorem startAt_threshold (cfg : Config) (applied : List PB) : (startAt cfg applied).reorgThreshold = cfg.reorgThreshold := by
  unfold startAt; split <;> rfl

/-- **C139**: however often and wherever it was stopped, a further life can bring the rest of the chain. -/
theorem C139_possible (hr : 0 < cfg.reorgThreshold) (hc : WsChain cfg n bs) {applied : List PB} (hl : WsLives C cfg num bs applied) :
    ∃ w0 w, WWhole.start (startAt cfg applied) (startNum num applied) = .ok w0 ∧ WWhole.Steps C env o w0 w ∧ (∀ k, Clean (w.came k)) ∧
      (∀ k, k < w.life.made → Answers (startAt cfg applied) (startNum num applied) (bs.drop applied.length) (w.req k) (items (w.came k))) ∧ rests C env o w ∧
      AllSeen bs (applied ++ w.sys.omp.log.flatMap addedBy) := by
  obtain ⟨a, n', e, he, h'⟩ := wsLife_chain hc hl
  obtain ⟨ms, hms⟩ := allInTurn_exists h' (known := []) rfl
  have hin : InTurn (bs.drop applied.length) ms := by
    obtain ⟨segs, g1, g2⟩ := hms
    exact ⟨segs, g1, by rw [g2]; exact List.prefix_refl _⟩
  obtain ⟨w0, w, s1, s2, s3, s4, s5, s6, s7⟩ := one_connection (C := C) (env := env) (o := o) (cfg := startAt cfg applied) (by rw [startAt_threshold]; exact hr) (startNum num applied) ms
  have hans : ∀ k, k < w.life.made → Answers (startAt cfg applied) (startNum num applied) (bs.drop applied.length) (w.req k) (items (w.came k)) := fun k hk => by
    obtain rfl : k = 0 := by omega
    exact ⟨[], _, rfl, s5, by rw [s6]; exact hin⟩
  refine ⟨w0, w, s1, s2, s7, hans, s3, C139_end hc hl s1 s2 s7 hans s3 (k := 0) (by rw [s4]) ?_⟩
  intro known rest e1 e2
  obtain ⟨rfl, rfl⟩ := tip_inj h' (k1 := []) (r1 := bs.drop applied.length) (num := startNum num applied) rfl e1 (s5.symm.trans e2)
  rw [s6]; exact hms

/-- Three lives: in the first the whole chain of two blocks is received, but the consumer is stopped when its application has applied one; in the second nothing is applied; the third brings the second
block. -/
example : ∃ b w0 w, WsLives Avro.codec exSysCfg 4 exTBs [b] ∧ WWhole.start (startAt exSysCfg [b]) b.number = .ok w0 ∧ WWhole.Steps Avro.codec exEnv .plain w0 w ∧
    (∀ k, k < w.life.made → Answers (startAt exSysCfg [b]) b.number (exTBs.drop 1) (w.req k) (items (w.came k))) ∧ rests Avro.codec exEnv .plain w ∧
    (w.sys.omp.log.flatMap addedBy).length = 1 := by
  obtain ⟨w0, w, s1, s2, s3, s4, s5, s6⟩ := C139_possible (C := Avro.codec) (env := exEnv) (o := .plain) (by decide +kernel) exT_chain (WsLives.first (num := 4))
  have hlen : (w.sys.omp.log.flatMap addedBy).length = 2 := s6.length
  cases hadd : w.sys.omp.log.flatMap addedBy with
  | nil => rw [hadd] at hlen; simp at hlen
  | cons b t =>
    have l1 : WsLives Avro.codec exSysCfg 4 exTBs [b] := .life (told := [b]) .first s1 s2 s3 s4 (by rw [hadd]; exact ⟨t, rfl⟩)
    obtain ⟨v0, v, r1, r2, r3, r4, r5, r6⟩ := C139_possible (C := Avro.codec) (env := exEnv) (o := .plain) (by decide +kernel) exT_chain l1
    have l2 : WsLives Avro.codec exSysCfg 4 exTBs [b] := .life (told := []) l1 r1 r2 r3 r4 (List.nil_prefix)
    refine ⟨b, v0, v, l2, r1, r2, r4, r5, ?_⟩
    have := r6.length
    have h2 : exTBs.length = 2 := rfl
    rw [h2, List.length_append, List.length_singleton] at this
    omega

end Verif
