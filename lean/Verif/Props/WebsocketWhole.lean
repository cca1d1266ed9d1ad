import Verif.Model.WebsocketWhole
import Verif.Props.WebsocketOrder
import Verif.Props.WebsocketTurn
import Verif.Props.WebsocketEndless
/-!
# C122: a websocket consumer with its connections

C106 and C121 are about items that are there to be read. Here they arrive over connections that break at any point, and the goroutine of the
consumer dials, subscribes, reads and connects again.
-/
namespace Verif
open Spec

variable {C : Codec} {env : Env} {o : MapOrder} {cfg : Config} {num : Int}

/-! ## The goroutine -/

theorem go_kinds {s t : LWs} (h : LWs.Go s t) :
    (∀ k, k < s.made → (s.conn k).up = false → (t.conn k).up = false) ∧
    ((t.made = s.made ∧ t.got = s.got) ∨ (t.made = s.made ∧ ∃ m, t.got = s.got ++ [m]) ∨
      (t.made = s.made + 1 ∧ t.got = s.got ∧ s.place = .dialing)) := by
  cases h with
  | again | stop | refused | rested => exact ⟨fun _ _ h => h, .inl ⟨rfl, rfl⟩⟩
  | dialled hp =>
    refine ⟨fun k hk h => ?_, .inr (.inr ⟨rfl, rfl, hp⟩)⟩
    simp only [LWs.upd]
    rw [if_neg (by omega)]; exact h
  | granted | skipped | lost | broken =>
    refine ⟨fun k hk h => ?_, .inl ⟨rfl, rfl⟩⟩
    simp only [LWs.upd, LWs.connected]
    split <;> simp_all
  | @read k sub last f rest hp hc hf hb =>
    obtain ⟨_, e2, e3, _⟩ := LWs.receive_same (s := s.upd k { s.conn k with buf := rest }) (sub := sub) (last := last) (f := f.seen)
    refine ⟨fun j hj h => ?_, ?_⟩
    · rw [e3]
      simp only [LWs.upd]
      split <;> simp_all
    · rw [e2]
      have hg : ((s.upd k { s.conn k with buf := rest }).receive sub last f.seen).got = s.got ∨
          ∃ m, ((s.upd k { s.conn k with buf := rest }).receive sub last f.seen).got = s.got ++ [m] := by
        unfold LWs.receive
        split <;> (try split) <;> simp [LWs.handle, LWs.upd]
      rcases hg with hg | ⟨m, hg⟩
      · exact .inl ⟨rfl, hg⟩
      · exact .inr (.inl ⟨rfl, m, hg⟩)

theorem world_keeps {s t : LWs} (h : LWs.World s t) : (∀ k, (s.conn k).up = false → (t.conn k).up = false) ∧ t.made = s.made ∧ t.got = s.got := by
  cases h with
  | started => exact ⟨fun _ h => h, rfl, rfl⟩
  | _ =>
    refine ⟨fun j h => ?_, rfl, rfl⟩
    simp only [LWs.upd]
    split <;> simp_all

theorem shut_keeps {s t : LWs} (h : LWs.Shut s t) : (∀ k, (s.conn k).up = false → (t.conn k).up = false) ∧ t.made = s.made ∧ t.got = s.got := by
  cases h with
  | close =>
    refine ⟨fun j h => ?_, rfl, rfl⟩
    simp only [LWs.upd]
    split <;> simp_all
  | _ => exact ⟨fun _ h => h, rfl, rfl⟩

/-- The connections of the consumer, seen alone. -/
theorem whole_history {w0 w : WWhole} (h0 : WWhole.start cfg num = .ok w0) (hs : WWhole.Steps C env o w0 w) : History w.life w.came := by
  induction hs with
  | refl =>
    unfold WWhole.start at h0
    obtain ⟨s, _, h0⟩ := bind_ok.mp h0
    cases h0
    exact .init
  | step _ hst ih =>
    cases hst with
    | own h =>
      cases h with
      | quiet _ hg _ _ => exact ih.go hg
      | dial _ hg _ => exact ih.go hg
      | item _ hg _ _ _ => exact ih.go hg
      | reorg _ hg _ _ _ => exact ih.go hg
      | inner _ => exact ih
    | arrive h1 h2 => exact ih.arrive h1 h2
    | world h hb => exact .world ih h hb
    | shut h => exact ih.shut h

theorem served_mono {p q : Nat × Hash → List WMsg → Prop} (hpq : ∀ r ms, p r ms → q r ms) {w w' : WSys} (h : WSys.ServedSteps p C env o w w') : WSys.ServedSteps q C env o w w' := by
  induction h with
  | refl => exact .refl
  | step _ hst ih =>
    refine .step ih ?_
    cases hst with
    | step h => exact .step h
    | connect h1 h2 h3 h4 => exact .connect h1 h2 h3 (hpq _ _ h4)

theorem served_trans {p : Nat × Hash → List WMsg → Prop} {w w' w'' : WSys} (h : WSys.ServedSteps p C env o w w') (h' : WSys.Steps C env o w' w'') :
    WSys.ServedSteps p C env o w w'' := by
  induction h' with
  | refl => exact h
  | step _ hst ih => exact .step ih (.step hst)

/-- What is read by the consumer with its connections is read by the one that is given all items at once: all that has arrived, and perhaps more on a connection that is
still there. -/
structure Simulated (C : Codec) (env : Env) (o : MapOrder) (cfg : Config) (num : Int) (A : Nat → List LFrame) (w : WWhole) (W0 W : WSys) : Prop where
  start : WSys.start cfg num [] [] = .ok W0
  steps : WSys.Steps C env o { W0 with later := (List.range w.life.made).map fun k => items (A k) } W
  dialled : ∀ k, k + 1 = w.life.made → ∃ Wc, WSys.ServedSteps (fun r ms => ∃ j, j < k ∧ r = w.req j ∧ ms = items (A j)) C env o W0 Wc ∧
    Wc.sys.todo = [] ∧ Wc.sys.out = [] ∧ Wc.todo = [] ∧ w.req k = Wc.conn.request ∧
    WSys.Steps C env o { Wc with conn := Wc.conn.reconnect, todo := items (A k) } W
  before : w.life.made = 0 → WSys.Steps C env o W0 W
  conn : W.conn = w.conn
  sys : W.sys = w.sys
  later : W.later = []
  todo : W.todo = (Spec.sent A w.life.made).drop w.life.got.length

theorem Simulated.own {A : Nat → List LFrame} {w w' : WWhole} {W0 W W' : WSys} (h : Simulated C env o cfg num A w W0 W) (hst : WSys.Step C env o W W')
    (hm : w'.life.made = w.life.made) (hr : w'.req = w.req) (hc : W'.conn = w'.conn) (hs : W'.sys = w'.sys) (hl : W'.later = [])
    (ht : W'.todo = (Spec.sent A w'.life.made).drop w'.life.got.length) : Simulated C env o cfg num A w' W0 W' := by
  refine ⟨h.start, by rw [hm]; exact .step h.steps hst, ?_, fun h' => .step (h.before (hm ▸ h')) hst, hc, hs, hl, ht⟩
  rw [hm, hr]
  intro k hk
  obtain ⟨Wc, g1, g2, g3, g4, g5, g6⟩ := h.dialled k hk
  exact ⟨Wc, g1, g2, g3, g4, g5, .step g6 hst⟩

theorem Simulated.same {A : Nat → List LFrame} {w w' : WWhole} {W0 W : WSys} (h : Simulated C env o cfg num A w W0 W)
    (hm : w'.life.made = w.life.made) (hg : w'.life.got = w.life.got) (hr : w'.req = w.req) (hc : w'.conn = w.conn) (hs : w'.sys = w.sys) :
    Simulated C env o cfg num A w' W0 W :=
  ⟨h.start, by rw [hm]; exact h.steps, by rw [hm, hr]; exact h.dialled, by rw [hm]; exact h.before, by rw [hc]; exact h.conn, by rw [hs]; exact h.sys, h.later,
    by rw [hm, hg]; exact h.todo⟩

/-- All items of a connection that is down are there. -/
theorem sent_prefix {s : LWs} {a A : Nat → List LFrame} (ok : s.Ok) (hA : ∀ k, a k <+: A k) (hdown : ∀ k, k < s.made → (s.conn k).up = false → A k = a k) :
    Spec.sent a s.made <+: Spec.sent A s.made ∧ (s.place.open = false → Spec.sent a s.made = Spec.sent A s.made) := by
  have hopen : ∀ k, k + 1 < s.made → A k = a k := by
    intro k hk
    refine hdown k (by omega) ?_
    cases hu : (s.conn k).up with
    | false => rfl
    | true => have := ok.last k (ok.only k hu).1; omega
  refine ⟨?_, fun hp => sent_congr fun k hk => ?_⟩
  · cases hn : s.made with
    | zero => exact List.prefix_refl _
    | succ n =>
      rw [sent_succ, sent_succ, sent_congr (a := a) (b := A) (fun k hk => (hopen k (by omega)).symm), List.prefix_append_right_inj]
      obtain ⟨r, e⟩ := hA n
      rw [← e]; exact items_append _ _
  · refine (hdown k hk ?_).symm
    cases hu : (s.conn k).up with
    | false => rfl
    | true => have := (ok.only k hu).2; rw [hp] at this; cases this

theorem whole_sim {w0 w : WWhole} (h0 : WWhole.start cfg num = .ok w0) (hs : WWhole.Steps C env o w0 w) :
    ∀ A, (∀ k, w.came k <+: A k) → (∀ k, k < w.life.made → (w.life.conn k).up = false → A k = w.came k) → (∀ k, Clean (A k)) →
      ∃ W0 W, Simulated C env o cfg num A w W0 W := by
  induction hs with
  | refl =>
    intro A _ _ _
    unfold WWhole.start at h0
    obtain ⟨s, h1, h0⟩ := bind_ok.mp h0
    cases h0
    refine ⟨⟨WConn.new num cfg.lastHash, [], [], s⟩, ⟨WConn.new num cfg.lastHash, [], [], s⟩, ?_, .refl, fun k hk => ?_, fun _ => .refl, rfl, rfl, rfl, rfl⟩
    · unfold WSys.start; rw [h1]; rfl
    · simp [LWs.init] at hk
  | @step w1 w2 hs hst ih =>
    intro A hA hdown hcl
    have hist := whole_history h0 hs
    have ok := hist.reach.ok
    -- the hypotheses hold before the step
    have hA1 : ∀ k, w1.came k <+: A k := by
      intro k
      cases hst with
      | own h => cases h <;> exact hA k
      | @arrive j f h1 h2 =>
        have := hA k
        simp only [] at this
        split at this
        · rename_i e; subst e; exact (List.prefix_append _ _).trans this
        · exact this
      | world => exact hA k
      | shut => exact hA k
    have hdown1 : ∀ k, k < w1.life.made → (w1.life.conn k).up = false → A k = w1.came k := by
      intro k hk hu
      cases hst with
      | own h =>
        cases h with
        | quiet _ hg hm _ => exact hdown k (by show k < _; rw [hm]; exact hk) ((go_kinds hg).1 k hk hu)
        | dial _ hg hm => exact hdown k (by show k < _; rw [hm]; omega) ((go_kinds hg).1 k hk hu)
        | item _ hg hgot =>
          refine hdown k (show k < _ from ?_) ((go_kinds hg).1 k hk hu)
          rcases (go_kinds hg).2 with ⟨e, _⟩ | ⟨e, _⟩ | ⟨e, _⟩ <;> rw [e] <;> omega
        | reorg _ hg hgot =>
          refine hdown k (show k < _ from ?_) ((go_kinds hg).1 k hk hu)
          rcases (go_kinds hg).2 with ⟨e, _⟩ | ⟨e, _⟩ | ⟨e, _⟩ <;> rw [e] <;> omega
        | inner => exact hdown k hk hu
      | @arrive j f h1 h2 =>
        have hne : k ≠ j := by rintro rfl; rw [hu] at h2; cases h2
        have := hdown k hk (by simp only [LWs.upd, if_neg hne]; exact hu)
        simp only [if_neg hne] at this
        exact this
      | world h _ => exact hdown k (by show k < _; rw [(world_keeps h).2.1]; exact hk) ((world_keeps h).1 k hu)
      | shut h => exact hdown k (by show k < _; rw [(shut_keeps h).2.1]; exact hk) ((shut_keeps h).1 k hu)
    obtain ⟨W0, W, hsim⟩ := ih A hA1 hdown1 hcl
    have hcl1 : ∀ k, Clean (w1.came k) := fun k => by obtain ⟨r, e⟩ := hA1 k; exact Clean.prefix (r := r) (by rw [e]; exact hcl k)
    cases hst with
    | arrive h1 h2 => exact ⟨W0, W, hsim.same rfl rfl rfl rfl rfl⟩
    | world h _ => exact ⟨W0, W, hsim.same (world_keeps h).2.1 (world_keeps h).2.2 rfl rfl rfl⟩
    | shut h => exact ⟨W0, W, hsim.same (shut_keeps h).2.1 (shut_keeps h).2.2 rfl rfl rfl⟩
    | own h =>
      cases h with
      | quiet hf hg hm hgot => exact ⟨W0, W, hsim.same hm hgot rfl rfl rfl⟩
      | @inner s h =>
        refine ⟨W0, { W with sys := s }, hsim.own (.inner (by rw [hsim.sys]; exact h)) rfl rfl hsim.conn rfl hsim.later hsim.todo⟩
      | @item t m mo d hf hg hgot hm hd =>
        have hmade : t.made = w1.life.made := by
          rcases (go_kinds hg).2 with ⟨e, _⟩ | ⟨e, _⟩ | ⟨_, e, _⟩
          · exact e
          · exact e
          · rw [hgot] at e; simp at e
        have hp : w1.life.got ++ [m] <+: Spec.sent A w1.life.made := by
          have h2 := (C108_partial (hist.go hg) hcl1).1
          rw [hgot, hmade] at h2
          exact h2.trans (sent_prefix ok hA1 hdown1).1
        obtain ⟨r, e⟩ := hp
        have htodo : W.todo = m :: r := by rw [hsim.todo, ← e, List.append_assoc, List.drop_left]; rfl
        refine ⟨W0, _, hsim.own (.read (m := m) (ms := r) (mo := mo) (d := d) (by rw [hsim.sys]; exact hf.1) (by rw [hsim.sys]; exact hf.2) htodo hm (by rw [hsim.conn]; exact hd))
          hmade rfl rfl ?_ hsim.later ?_⟩
        · simp only [hsim.sys, hsim.conn]
        · show r = (Spec.sent A t.made).drop t.got.length
          rw [hmade, hgot, ← e, List.drop_left]
      | @reorg t n h mo d omp hf hg hgot hd homp =>
        have hmade : t.made = w1.life.made := by
          rcases (go_kinds hg).2 with ⟨e, _⟩ | ⟨e, _⟩ | ⟨_, e, _⟩
          · exact e
          · exact e
          · rw [hgot] at e; simp at e
        have hp : w1.life.got ++ [.reorg n h] <+: Spec.sent A w1.life.made := by
          have h2 := (C108_partial (hist.go hg) hcl1).1
          rw [hgot, hmade] at h2
          exact h2.trans (sent_prefix ok hA1 hdown1).1
        obtain ⟨r, e⟩ := hp
        have htodo : W.todo = .reorg n h :: r := by rw [hsim.todo, ← e, List.append_assoc, List.drop_left]; rfl
        refine ⟨W0, _, hsim.own (.reorg (n := n) (h := h) (ms := r) (mo := mo) (d := d) (omp := omp) (by rw [hsim.sys]; exact hf.1) (by rw [hsim.sys]; exact hf.2) htodo (by rw [hsim.conn]; exact hd)
          (by rw [hsim.sys]; exact homp)) hmade rfl rfl ?_ hsim.later ?_⟩
        · simp only [hsim.sys]
        · show r = (Spec.sent A t.made).drop t.got.length
          rw [hmade, hgot, ← e, List.drop_left]
      | @dial t hf hg hmade =>
        have hgot : t.got = w1.life.got ∧ w1.life.place = .dialing := by
          rcases (go_kinds hg).2 with ⟨e, _⟩ | ⟨e, _⟩ | ⟨_, e1, e2⟩
          · omega
          · omega
          · exact ⟨e1, e2⟩
        have hlen : w1.life.got = Spec.sent A w1.life.made := by
          have hat := (hist_of hist hcl1).at_
          unfold LWs.At at hat
          rw [hgot.2] at hat
          rw [hat.1]
          exact (sent_prefix ok hA1 hdown1).2 (by rw [hgot.2]; rfl)
        have htodo : W.todo = [] := by rw [hsim.todo, hlen, List.drop_length]
        have i1 : W.sys.todo = [] := by rw [hsim.sys]; exact hf.1
        have i2 : W.sys.out = [] := by rw [hsim.sys]; exact hf.2
        have hsteps := wsteps_later [items (A w1.life.made)] hsim.steps
        have hl : W.later ++ [items (A w1.life.made)] = [items (A w1.life.made)] := by rw [hsim.later]; rfl
        have hstep : WSys.Step C env o { W with later := W.later ++ [items (A w1.life.made)] } { W with conn := W.conn.reconnect, todo := items (A w1.life.made), later := [] } :=
          .reconnect i1 i2 htodo hl
        have hW : ({ W with conn := W.conn.reconnect, todo := items (A w1.life.made), later := [] } : WSys) = { W with conn := W.conn.reconnect, todo := items (A w1.life.made) } := by
          have hl := hsim.later; clear hsim; cases W; simp only at hl; subst hl; rfl
        refine ⟨W0, { W with conn := W.conn.reconnect, todo := items (A w1.life.made) }, hsim.start, ?_, ?_, ?_, ?_, hsim.sys, hsim.later, ?_⟩
        · show WSys.Steps C env o { W0 with later := (List.range t.made).map fun k => items (A k) } _
          rw [hmade, List.range_succ, List.map_append, ← hW]
          exact .step hsteps hstep
        · intro k hk
          have hk : k = w1.life.made := by have : k + 1 = t.made := hk; omega
          subst hk
          have hreq : ∀ j, (fun k => if k = w1.life.made then w1.conn.request else w1.req k) j = if j = w1.life.made then w1.conn.request else w1.req j := fun _ => rfl
          have hserved : WSys.ServedSteps (fun r ms => ∃ j, j < w1.life.made ∧ r = w1.req j ∧ ms = items (A j)) C env o W0 W := by
            cases hn : w1.life.made with
            | zero => exact served_trans .refl (hsim.before hn)
            | succ n =>
              obtain ⟨Wc, g1, g2, g3, g4, g5, g6⟩ := hsim.dialled n hn.symm
              refine served_trans (.step (served_mono ?_ g1) (.connect g2 g3 g4 ⟨n, by omega, g5.symm, rfl⟩)) g6
              rintro r ms ⟨j, hj, e⟩
              exact ⟨j, by omega, e⟩
          refine ⟨W, served_mono ?_ hserved, i1, i2, htodo, ?_, .refl⟩
          · rintro r ms ⟨j, hj, rfl, rfl⟩
            refine ⟨j, hj, ?_, rfl⟩
            simp only []
            rw [if_neg (by omega)]
          · simp only [if_true]; rw [hsim.conn]
        · intro h; have : t.made = 0 := h; omega
        · show W.conn.reconnect = w1.conn.reconnect
          rw [hsim.conn]
        · show items _ = (Spec.sent A t.made).drop t.got.length
          rw [hmade, hgot.1, sent_succ, hlen, List.drop_left]

/-! ## Coming to rest -/

/-- The consumer can do nothing by itself. -/
def Spec.rests (C : Codec) (env : Env) (o : MapOrder) (w : WWhole) : Prop := ∀ w', ¬ WWhole.Own C env o w w'

/-- The goroutine waits on a connection that is there and has nothing to read. -/
structure Spec.listens (w : WWhole) (k : Nat) : Prop where
  cur : w.life.cur = some k
  newest : k + 1 = w.life.made
  up : (w.life.conn k).up = true
  read : (w.life.conn k).buf = []
  place : w.life.place = .subscribing ∨ ∃ last, w.life.place = .reading true last

/-- The items that arrived on each connection, for the subscription. -/
def Spec.connections (w : WWhole) : List (List WMsg) := (List.range w.life.made).map fun k => items (w.came k)

theorem listening {s : LWs} {a : Nat → List LFrame} (h : History s a) (hno : ∀ t, ¬ LWs.Go s t) :
    (s.place = .ended ∧ s.quit = true) ∨
    ∃ k, s.cur = some k ∧ k + 1 = s.made ∧ (s.conn k).up = true ∧ (s.conn k).buf = [] ∧ (s.place = .subscribing ∨ ∃ last, s.place = .reading true last) := by
  have ok := h.reach.ok
  have hcur : s.place.open = true → (s.place.nosub = false) →
      (∀ k, s.cur = some k → ((s.conn k).failed = true ∨ (s.conn k).buf = [] ∧ (s.conn k).up = false) → False) →
      (∀ k f rest, s.cur = some k → (s.conn k).failed = false → (s.conn k).buf = f :: rest → False) →
      ∃ k, s.cur = some k ∧ k + 1 = s.made ∧ (s.conn k).up = true ∧ (s.conn k).buf = [] := by
    intro h1 _ h2 h3
    obtain ⟨k, hk⟩ := ok.held h1
    have hf : (s.conn k).failed = false := by
      cases hf : (s.conn k).failed with
      | false => rfl
      | true => exact (h2 k hk (.inl hf)).elim
    have hb : (s.conn k).buf = [] := by
      cases hb : (s.conn k).buf with
      | nil => rfl
      | cons f rest => exact (h3 k f rest hk hf hb).elim
    refine ⟨k, hk, ok.last k hk, ?_, hb⟩
    cases hu : (s.conn k).up with
    | true => rfl
    | false => exact (h2 k hk (.inr ⟨hb, hu⟩)).elim
  cases hp : s.place with
  | top =>
    cases hq : s.quit with
    | false => exact absurd (.again hp hq) (hno _)
    | true => exact absurd (.stop hp hq) (hno _)
  | dialing => exact absurd (.refused hp) (hno _)
  | resting => exact absurd (.rested hp) (hno _)
  | crashed => exact absurd hp ok.sane
  | ended => exact .inl ⟨rfl, C108_goes_on h.reach hp⟩
  | subscribing =>
    obtain ⟨k, h1, h2, h3, h4⟩ := hcur (by rw [hp]; rfl) (by rw [hp]; rfl) (fun k hk hf => hno _ (.lost hp hk hf)) (fun k f rest hk hf hb => by
      by_cases e : f = .granted
      · subst e; exact hno _ (.granted hp hk hf hb)
      · exact hno _ (.skipped hp hk hf hb e))
    exact .inr ⟨k, h1, h2, h3, h4, .inl rfl⟩
  | reading sub last =>
    cases sub with
    | false =>
      obtain ⟨k, hk⟩ := ok.held (by rw [hp]; rfl)
      exact absurd (.broken hp hk (.inl (ok.nosub (by rw [hp]; rfl) k hk))) (hno _)
    | true =>
      obtain ⟨k, h1, h2, h3, h4⟩ := hcur (by rw [hp]; rfl) (by rw [hp]; rfl) (fun k hk hf => hno _ (.broken hp hk hf)) (fun k f rest hk hf hb => hno _ (.read hp hk hf hb))
      exact .inr ⟨k, h1, h2, h3, h4, .inr ⟨last, rfl⟩⟩

section
variable {w0 w : WWhole} {W0 W : WSys}

/-- No goroutine of the consumer is about to fault if none is of the one that is given the items at once. -/
theorem Simulated.fine (hsim : Simulated C env o cfg num w.came w W0 W) (hist : History w.life w.came) (hcl : ∀ k, Clean (w.came k))
    (hnf : ¬ W.Faulting C env o) : ¬ w.Faulting C env o := by
  rintro (⟨t, m, mo, f, hfr, hg, hgot, hd⟩ | ⟨t, hg, hp⟩ | ⟨c, cs, f, e, hd⟩ | ⟨pb, rest, f, e, hd⟩)
  · refine hnf (.inl ?_)
    have hmade : t.made = w.life.made := by
      rcases (go_kinds hg).2 with ⟨e, _⟩ | ⟨e, _⟩ | ⟨_, e, _⟩
      · exact e
      · exact e
      · rw [hgot] at e; simp at e
    have h2 := (C108_partial (hist.go hg) hcl).1
    rw [hgot, hmade] at h2
    obtain ⟨r, e⟩ := h2
    refine ⟨m, r, mo, f, by rw [hsim.sys]; exact hfr.1, by rw [hsim.sys]; exact hfr.2, ?_, by rw [hsim.conn]; exact hd⟩
    rw [hsim.todo, ← e, List.append_assoc, List.drop_left]; rfl
  · exact (hist.go hg).reach.ok.sane hp
  · exact hnf (.inr (.inl ⟨c, cs, f, by rw [hsim.sys]; exact e, by rw [hsim.sys]; exact hd⟩))
  · exact hnf (.inr (.inr ⟨pb, rest, f, by rw [hsim.sys]; exact e, by rw [hsim.sys]; exact hd⟩))

/-- A consumer at rest has handled all that has arrived, and its goroutine waits for more or has ended after `Close`. -/
theorem Simulated.rest (hsim : Simulated C env o cfg num w.came w W0 W) (hist : History w.life w.came) (hcl : ∀ k, Clean (w.came k))
    (hnf : ¬ W.Faulting C env o) (hprog : (∃ W', WSys.Step C env o W W') ∨ W.sys.Drained ∧ W.todo = [] ∧ W.later = [])
    (hnr : ∀ m ∈ W.todo, ∀ n h, m ≠ .reorg n h) (hst : rests C env o w) :
    w.sys.Drained ∧ W.todo = [] ∧ (∀ W', ¬ WSys.Step C env o W W') ∧ w.life.got = Spec.sent w.came w.life.made ∧
    ((w.life.place = .ended ∧ w.life.quit = true) ∨ ∃ k, listens w k) := by
  have hin : ∀ s, ¬ Sys.Step C env o W.sys s := fun s h => hst _ (.inner (by rw [← hsim.sys]; exact h))
  have hfree : w.free := by
    show w.sys.todo = [] ∧ w.sys.out = []
    rw [← hsim.sys]
    rcases hprog with ⟨W', h⟩ | ⟨hd, _⟩
    · cases h with
      | read h1 h2 => exact ⟨h1, h2⟩
      | reorg h1 h2 => exact ⟨h1, h2⟩
      | reconnect h1 h2 => exact ⟨h1, h2⟩
      | inner h => exact absurd h (hin _)
    · exact ⟨hd.1, hd.2.1⟩
  have hno : ∀ t, ¬ LWs.Go w.life t := by
    intro t hg
    rcases (go_kinds hg).2 with ⟨e1, e2⟩ | ⟨e1, m, e2⟩ | ⟨e1, e2, e3⟩
    · exact hst _ (.quiet hfree hg e1 e2)
    · cases hd : w.conn.step .plain m with
      | error f => exact hsim.fine hist hcl hnf (.inl ⟨t, m, .plain, f, hfree, hg, e2, hd⟩)
      | ok d =>
        refine hst _ (.item hfree hg e2 ?_ hd)
        refine hnr m ?_
        have h2 := (C108_partial (hist.go hg) hcl).1
        rw [e2, e1] at h2
        obtain ⟨r, e⟩ := h2
        rw [hsim.todo, ← e, List.append_assoc, List.drop_left]; simp
    · exact hst _ (.dial hfree hg e1)
  have hl := listening hist hno
  have hi := hist_of hist hcl
  have hbuf : ∀ k, (w.life.conn k).buf = [] := by
    rcases hl with ⟨hp, _⟩ | ⟨k, h1, h2, h3, h4, h5⟩
    · have hat := hi.at_
      unfold LWs.At at hat
      rw [hp] at hat
      exact hat.2
    · exact hi.empty h1 h4
  have hgot := (C108_partial hist hcl).2 hbuf
  have htodo : W.todo = [] := by rw [hsim.todo, hgot, List.drop_length]
  have hstuck : ∀ W', ¬ WSys.Step C env o W W' := by
    intro W' h
    cases h with
    | read _ _ h3 => rw [htodo] at h3; cases h3
    | reorg _ _ h3 => rw [htodo] at h3; cases h3
    | reconnect _ _ _ h4 => rw [hsim.later] at h4; cases h4
    | inner h => exact hin _ h
  obtain ⟨hd, _⟩ := hprog.resolve_left (fun ⟨W', h⟩ => hstuck W' h)
  refine ⟨by rw [← hsim.sys]; exact hd, htodo, hstuck, hgot, ?_⟩
  rcases hl with h | ⟨k, h1, h2, h3, h4, h5⟩
  · exact .inl h
  · exact .inr ⟨k, h1, h2, h3, h4, h5⟩

end

/-! ## C122: a chain -/

section
variable {n : Int} {bs : List WsArgs}

theorem Simulated.served {w : WWhole} {W0 W : WSys} (hsim : Simulated C env o cfg num w.came w W0 W) {serve : Nat × Hash → List WMsg → Prop}
    (hans : ∀ k, k < w.life.made → serve (w.req k) (items (w.came k))) : WSys.ServedSteps serve C env o W0 W := by
  cases hn : w.life.made with
  | zero => exact served_trans .refl (hsim.before hn)
  | succ m =>
    obtain ⟨Wc, g1, g2, g3, g4, g5, g6⟩ := hsim.dialled m hn.symm
    refine served_trans (.step (served_mono ?_ g1) (.connect g2 g3 g4 ?_)) g6
    · rintro r ms ⟨j, hj, rfl, rfl⟩
      exact hans j (by omega)
    · rw [← g5]; exact hans m (by omega)

/-- What is known of the items on the way. -/
theorem answers_progress (hc : WsChain cfg n bs) {W0 W : WSys} (h0 : WSys.start cfg num [] [] = .ok W0) (hw : WSys.ServedSteps (Answers cfg num bs) C env o W0 W)
    (hl : W.later = []) :
    ¬ W.Faulting C env o ∧ ((∃ W', WSys.Step C env o W W') ∨ W.sys.Drained ∧ W.todo = [] ∧ W.later = []) ∧ ∀ m ∈ W.todo, ∀ n h, m ≠ .reorg n h := by
  obtain ⟨known, rest, ms, _, hinv⟩ := servedInv_steps hc h0 hw
  obtain ⟨first, later, w1, r1, r2, r3⟩ := hinv.run
  have hcar := turn_carried hc r1
  obtain ⟨g1, g2⟩ := wsys_progress hcar r2 (fun omp0 ds hn hds => by
    obtain ⟨s, _, _, g, _⟩ := chain_orders (o := o) hc hn hds
    exact ⟨s, g⟩) r3
  refine ⟨g1, g2, fun m hm => ?_⟩
  obtain ⟨hist, seen, l0, l, e1, _⟩ := (wsinv_steps hcar rfl r2 r3).pos
  exact (hcar.only (seen ++ W.todo) (by rw [e1]; simp) m (by simp [hm])).1

/-- **C122**: over connections that break at any point, a consumer asks on each for what follows the position it has reached, and receives blocks of a chain from there on, one after the other.
Then none of its goroutines is ever about to fault; at every moment its subscribers have seen an initial part of the chain, each block once, in order and exactly; and whenever it has worked off what it read, what it would
ask for next is exactly what follows the block seen last. `Close` may be called at any time. -/
theorem C122_served (hc : WsChain cfg n bs) {w0 w : WWhole} (h0 : WWhole.start cfg num = .ok w0) (hs : WWhole.Steps C env o w0 w) (hcl : ∀ k, Clean (w.came k))
    (hans : ∀ k, k < w.life.made → Answers cfg num bs (w.req k) (items (w.came k))) :
    ¬ w.Faulting C env o ∧ ∃ seen, seen <+: bs ∧ WsSaw bs seen w.sys.omp.log ∧ (w.sys.Drained → w.conn.request = tip num cfg.lastHash seen) := by
  obtain ⟨W0, W, hsim⟩ := whole_sim h0 hs w.came (fun _ => List.prefix_refl _) (fun _ _ _ => rfl) hcl
  have hist := whole_history h0 hs
  obtain ⟨g1, g2⟩ := C106_served hc hsim.start (hsim.served hans)
  refine ⟨hsim.fine hist hcl g1, ?_⟩
  rw [hsim.sys, hsim.conn] at g2
  exact g2

/-- **C122**, no deadlock: a consumer that can do nothing by itself has handled all that has arrived on all its connections, and its goroutine waits for more on a connection that is there, or has ended
because `Close` was called. -/
theorem C122_rest (hc : WsChain cfg n bs) {w0 w : WWhole} (h0 : WWhole.start cfg num = .ok w0) (hs : WWhole.Steps C env o w0 w) (hcl : ∀ k, Clean (w.came k))
    (hans : ∀ k, k < w.life.made → Answers cfg num bs (w.req k) (items (w.came k))) (hst : rests C env o w) :
    w.sys.Drained ∧ w.life.got = (connections w).flatten ∧ ((w.life.place = .ended ∧ w.life.quit = true) ∨ ∃ k, listens w k) := by
  obtain ⟨W0, W, hsim⟩ := whole_sim h0 hs w.came (fun _ => List.prefix_refl _) (fun _ _ _ => rfl) hcl
  obtain ⟨g1, g2, g3⟩ := answers_progress hc hsim.start (hsim.served hans) hsim.later
  obtain ⟨r1, _, _, r4, r5⟩ := hsim.rest (whole_history h0 hs) hcl g1 g2 g3 hst
  exact ⟨r1, by rw [r4, Spec.sent, List.flatMap_def]; rfl, r5⟩

/-- **C122**, the end: if moreover the newest connection has brought all blocks after the position asked for on it, the subscribers have seen the whole chain. -/
theorem C122_all (hc : WsChain cfg n bs) {w0 w : WWhole} (h0 : WWhole.start cfg num = .ok w0) (hs : WWhole.Steps C env o w0 w) (hcl : ∀ k, Clean (w.came k))
    (hans : ∀ k, k < w.life.made → Answers cfg num bs (w.req k) (items (w.came k))) (hst : rests C env o w) {k : Nat} (hk : k + 1 = w.life.made)
    (hall : ∀ known rest, bs = known ++ rest → w.req k = tip num cfg.lastHash known → AllInTurn rest (items (w.came k))) : WsSaw bs bs w.sys.omp.log := by
  obtain ⟨W0, W, hsim⟩ := whole_sim h0 hs w.came (fun _ => List.prefix_refl _) (fun _ _ _ => rfl) hcl
  obtain ⟨g1, g2, g3⟩ := answers_progress hc hsim.start (hsim.served hans) hsim.later
  obtain ⟨_, _, r3, _⟩ := hsim.rest (whole_history h0 hs) hcl g1 g2 g3 hst
  obtain ⟨Wc, d1, d2, d3, d4, d5, d6⟩ := hsim.dialled k hk
  rw [← hsim.sys]
  refine C106_all hc hsim.start (served_mono ?_ d1) ⟨d2, d3⟩ d4 ?_ d6 r3
  · rintro r ms ⟨j, hj, rfl, rfl⟩
    exact hans j (by omega)
  · intro known rest hbs hreq
    exact hall known rest hbs (d5.trans hreq)

end

/-! ## C122: forks -/

/-- **C122** with forks: the blocks of a tree, however many, arrive over connections that break at any point, and each of them, when it becomes complete, repeats a recent block or branches off at a recent
block. Then none of the goroutines of the consumer is ever about to fault, and the head is the first-handled heaviest block. A consumer that can do nothing by itself has handled all that has arrived, and its goroutine waits for more or has ended after `Close`; if every
block arrived completely on some connection, the subscribers then hold a chain of blocks exactly as given to the producer that ends in a heaviest block of the tree. (Before the first connection nothing is read: `[]`.) -/
theorem C122_forks {root : WsArgs} {tree order : List WsArgs} {w0 w : WWhole} (h0 : WWhole.start cfg num = .ok w0) (hs : WWhole.Steps C env o w0 w) (hcl : ∀ k, Clean (w.came k))
    (h : WsTree cfg root tree ([] :: connections w)) (ho : ComingWholeAll tree ([] :: connections w) order)
    (htr : AllTracked (2 * cfg.reorgThreshold) cfg.lastHash ((order.map wsSent).map bare)) :
    ¬ w.Faulting C env o ∧ (blocksOf w.sys.ops ≠ [] → FirstHeaviest (blocksOf w.sys.ops) w.sys.omp.lastHash) ∧
    (rests C env o w → w.sys.Drained ∧ w.life.got = (connections w).flatten ∧ ((w.life.place = .ended ∧ w.life.quit = true) ∨ ∃ k, listens w k) ∧
      (WsComplete tree ([] :: connections w) → hashes (blocksOf w.sys.ops) = order.map (·.1.hash) ∧
        ∃ base chain top, Replays cfg.lastHash w.sys.omp.log base chain ∧ Linked base chain ∧ endOf base chain = top.1.hash ∧
          top ∈ tree ∧ (∀ b ∈ tree, b.1.weight ≤ top.1.weight) ∧ ∀ pb ∈ chain, ∃ b ∈ tree, WsSeen b.1 b.2 pb)) := by
  obtain ⟨W0, W, hsim⟩ := whole_sim h0 hs w.came (fun _ => List.prefix_refl _) (fun _ _ _ => rfl) hcl
  have hist := whole_history h0 hs
  have h0' : WSys.start cfg num [] (connections w) = .ok { W0 with later := connections w } := by
    have := hsim.start
    unfold WSys.start at this ⊢
    obtain ⟨s, e1, e2⟩ := bind_ok.mp this
    rw [e1]
    cases e2; rfl
  obtain ⟨g1, g2, _, g4⟩ := C121_head h ho htr h0' hsim.steps
  refine ⟨hsim.fine hist hcl g1, by rw [← hsim.sys]; exact g4, fun hst => ?_⟩
  have hnr : ∀ m ∈ W.todo, ∀ n h, m ≠ .reorg n h := by
    intro m hm
    obtain ⟨hist, seen, l0, l, e1, _⟩ := (wsinv_steps h.toWsCarried rfl h0' hsim.steps).pos
    exact (h.only (seen ++ W.todo) (by rw [e1]; simp) m (by simp [hm])).1
  obtain ⟨r1, _, r3, r4, r5⟩ := hsim.rest hist hcl g1 g2 hnr hst
  refine ⟨r1, by rw [r4, Spec.sent, List.flatMap_def]; rfl, r5, fun ha => ?_⟩
  have := C121_end h ho htr ha h0' hsim.steps r3
  rw [hsim.sys] at this
  exact this

/-! ## C122: no endless work -/

/-- What is left to do at a place of the program. -/
def LPlace.rank : LPlace → Nat
  | .subscribing => 4
  | .reading _ _ => 3
  | .resting => 2
  | .top => 1
  | _ => 0

/-- What the goroutine has left to do before it dials. -/
def LWs.work (s : LWs) : Nat :=
  8 * (match s.cur with | some k => (s.conn k).buf.length | none => 0) + s.place.rank

theorem receive_rank {s : LWs} {sub : Bool} {last : Option WMsg} (f : WFrame) (h : s.place = .reading sub last) : (s.receive sub last f).place.rank ≤ 3 := by
  cases f <;> cases last <;> cases sub <;> simp [LWs.receive, LWs.handle, h, LPlace.rank]

theorem go_less {s t : LWs} (h : LWs.Go s t) (hs : s.place ≠ .dialing) (ht : t.place ≠ .dialing) : t.work < s.work := by
  cases h with
  | again => exact absurd rfl ht
  | stop hp => simp only [LWs.work, hp, LPlace.rank]; omega
  | dialled hp => exact absurd hp hs
  | refused hp => exact absurd hp hs
  | rested hp => simp only [LWs.work, hp, LPlace.rank]; omega
  | granted hp hc hf hb => simp only [LWs.work, LWs.connected, LWs.upd, hp, hc, if_true, hb, LPlace.rank, List.length_cons]; omega
  | skipped hp hc hf hb => simp only [LWs.work, LWs.upd, hp, hc, if_true, hb, LPlace.rank, List.length_cons]; omega
  | lost hp hc => simp only [LWs.work, LWs.connected, LWs.upd, hp, hc, if_true, LPlace.rank]; omega
  | @read k sub last f rest hp hc hf hb =>
    have hplace := receive_rank (s := s.upd k { s.conn k with buf := rest }) f.seen hp
    obtain ⟨e1, _, e3, _⟩ := LWs.receive_same (s := s.upd k { s.conn k with buf := rest }) (sub := sub) (last := last) (f := f.seen)
    have hc' : ((s.upd k { s.conn k with buf := rest }).receive sub last f.seen).cur = some k := by rw [e1]; exact hc
    have e : ((s.upd k { s.conn k with buf := rest }).receive sub last f.seen).work = 8 * rest.length + ((s.upd k { s.conn k with buf := rest }).receive sub last f.seen).place.rank := by
      show 8 * _ + _ = _
      rw [hc', e3]; simp [LWs.upd]
    have e' : s.work = 8 * (rest.length + 1) + 3 := by simp [LWs.work, hp, hc, hb, LPlace.rank]
    show LWs.work ((s.upd k { s.conn k with buf := rest }).receive sub last f.seen) < _
    rw [e, e']
    exact Nat.lt_of_lt_of_le (Nat.add_lt_add_left (Nat.lt_succ_of_le hplace) _) (by omega)
  | broken hp hc => simp only [LWs.work, LWs.upd, hp, hc, if_true, LPlace.rank]; omega

/-- What the consumer has left to do before it dials. -/
def WWhole.work (w : WWhole) : Nat × Nat × Nat := (w.life.work, w.sys.work)

theorem own_less {w w' : WWhole} (h : WWhole.Own C env o w w') (hs : w.life.place ≠ .dialing) (ht : w'.life.place ≠ .dialing) :
    Prod.Lex (· < ·) (Prod.Lex (· < ·) (· < ·)) w'.work w.work := by
  cases h with
  | quiet _ hg _ _ => exact .left _ _ (go_less hg hs ht)
  | dial _ hg _ => exact .left _ _ (go_less hg hs ht)
  | item _ hg _ _ _ => exact .left _ _ (go_less hg hs ht)
  | reorg _ hg _ _ _ => exact .left _ _ (go_less hg hs ht)
  | inner h => exact .right _ h.less

/-- **C122**, no endless work: a consumer that goes on for ever, with nothing arriving, is dialling again and again. -/
theorem C122_no_endless (f : Nat → WWhole) (h : ∀ n, WWhole.Own C env o (f n) (f (n + 1))) : ∀ n, ∃ m, n ≤ m ∧ (f m).life.place = .dialing := by
  intro n0
  apply Classical.byContradiction
  intro hno
  have hno : ∀ m, n0 ≤ m → (f m).life.place ≠ .dialing := fun m hm e => hno ⟨m, hm, e⟩
  have wf : WellFounded (Prod.Lex (α := Nat) (β := Nat × Nat) (· < ·) (Prod.Lex (· < ·) (· < ·))) :=
    (Prod.lex ⟨_, Nat.lt_wfRel.wf⟩ (Prod.lex ⟨_, Nat.lt_wfRel.wf⟩ ⟨_, Nat.lt_wfRel.wf⟩)).wf
  have : ∀ x, Acc (Prod.Lex (α := Nat) (β := Nat × Nat) (· < ·) (Prod.Lex (· < ·) (· < ·))) x → ∀ n, n0 ≤ n → (f n).work = x → False := by
    intro x hx
    induction hx with
    | intro x _ ih =>
      rintro n hn rfl
      exact ih _ (own_less (h n) (hno n hn) (hno _ (by omega))) (n + 1) (by omega) rfl
  exact this _ (wf.apply _) n0 (Nat.le_refl _) rfl

/-! ## Example: the first connection breaks in the middle of the second block -/

/-- The consumer has a connection that is there, and reads it. -/
structure HasLine (w : WWhole) (k : Nat) : Prop where
  cur : w.life.cur = some k
  newest : k < w.life.made
  up : (w.life.conn k).up = true
  failed : (w.life.conn k).failed = false
  quit : w.life.quit = false
  place : w.life.place = .subscribing ∨ ∃ last, w.life.place = .reading true last

theorem HasLine.go {w : WWhole} {k : Nat} (h : HasLine w k) {t : LWs} (hg : LWs.Go w.life t) : t.made = w.life.made ∧ HasLine { w with life := t } k := by
  have hlost : ∀ j, w.life.cur = some j → ((w.life.conn j).failed = true ∨ (w.life.conn j).buf = [] ∧ (w.life.conn j).up = false) → False := by
    intro j hj hf
    rw [h.cur] at hj; cases hj
    rw [h.failed, h.up] at hf
    simp at hf
  cases hg with
  | again hp | stop hp | dialled hp | refused hp | rested hp => rcases h.place with e | ⟨_, e⟩ <;> rw [e] at hp <;> cases hp
  | lost _ hc hf => exact (hlost _ hc hf).elim
  | broken _ hc hf => exact (hlost _ hc hf).elim
  | granted hp hc hf hb =>
    rw [h.cur] at hc; cases hc
    exact ⟨rfl, h.cur, h.newest, by simp [LWs.connected, LWs.upd, h.up], by simp [LWs.connected, LWs.upd, h.failed], h.quit, .inr ⟨none, rfl⟩⟩
  | skipped hp hc hf hb =>
    rw [h.cur] at hc; cases hc
    exact ⟨rfl, h.cur, h.newest, by simp [LWs.upd, h.up], by simp [LWs.upd, h.failed], h.quit, .inl hp⟩
  | @read j sub last f rest hp hc hf hb =>
    rw [h.cur] at hc; cases hc
    have hsub : sub = true := by
      rcases h.place with e | ⟨_, e⟩ <;> rw [e] at hp <;> cases hp
      rfl
    subst hsub
    obtain ⟨e1, e2, e3, _⟩ := LWs.receive_same (s := w.life.upd k { w.life.conn k with buf := rest }) (sub := true) (last := last) (f := f.seen)
    refine ⟨e2, by show _ = _; rw [e1]; exact h.cur, by show _ < _; rw [e2]; exact h.newest, ?_, ?_, ?_, .inr ?_⟩
    · show ((LWs.receive _ _ _ _).conn k).up = true
      rw [e3]; simp [LWs.upd, h.up]
    · show ((LWs.receive _ _ _ _).conn k).failed = false
      rw [e3]; simp [LWs.upd, h.failed]
    · show (LWs.receive _ _ _ _).quit = false
      have : ∀ (s : LWs) sub last f, (s.receive sub last f).quit = s.quit := by
        intro s sub last f
        cases f <;> cases last <;> cases sub <;> rfl
      rw [this]; exact h.quit
    · exact LWs.receive_open (by exact hp)

theorem HasLine.own {w w' : WWhole} {k : Nat} (h : HasLine w k) (hst : WWhole.Own C env o w w') :
    HasLine w' k ∧ w'.life.made = w.life.made ∧ w'.req = w.req ∧ w'.came = w.came := by
  cases hst with
  | quiet _ hg _ _ => exact ⟨⟨(h.go hg).2.cur, (h.go hg).2.newest, (h.go hg).2.up, (h.go hg).2.failed, (h.go hg).2.quit, (h.go hg).2.place⟩, (h.go hg).1, rfl, rfl⟩
  | dial _ hg hm => have := (h.go hg).1; omega
  | item _ hg _ _ _ => exact ⟨⟨(h.go hg).2.cur, (h.go hg).2.newest, (h.go hg).2.up, (h.go hg).2.failed, (h.go hg).2.quit, (h.go hg).2.place⟩, (h.go hg).1, rfl, rfl⟩
  | reorg _ hg _ _ _ => exact ⟨⟨(h.go hg).2.cur, (h.go hg).2.newest, (h.go hg).2.up, (h.go hg).2.failed, (h.go hg).2.quit, (h.go hg).2.place⟩, (h.go hg).1, rfl, rfl⟩
  | inner => exact ⟨⟨h.cur, h.newest, h.up, h.failed, h.quit, h.place⟩, rfl, rfl, rfl⟩

/-- It comes to rest. -/
theorem HasLine.comes_to_rest {w0 w : WWhole} {k : Nat} (h : HasLine w k) (hs : WWhole.Steps C env o w0 w) :
    ∃ w', WWhole.Steps C env o w0 w' ∧ Spec.rests C env o w' ∧ HasLine w' k ∧ w'.life.made = w.life.made ∧ w'.req = w.req ∧ w'.came = w.came := by
  have wf : WellFounded (Prod.Lex (α := Nat) (β := Nat × Nat) (· < ·) (Prod.Lex (· < ·) (· < ·))) :=
    (Prod.lex ⟨_, Nat.lt_wfRel.wf⟩ (Prod.lex ⟨_, Nat.lt_wfRel.wf⟩ ⟨_, Nat.lt_wfRel.wf⟩)).wf
  have hnd : ∀ {w : WWhole}, HasLine w k → w.life.place ≠ .dialing := fun h e => by
    rcases h.place with e' | ⟨_, e'⟩ <;> rw [e'] at e <;> cases e
  have key : ∀ x, Acc (Prod.Lex (α := Nat) (β := Nat × Nat) (· < ·) (Prod.Lex (· < ·) (· < ·))) x → ∀ w : WWhole, w.work = x → HasLine w k → WWhole.Steps C env o w0 w →
      ∃ w', WWhole.Steps C env o w0 w' ∧ Spec.rests C env o w' ∧ HasLine w' k ∧ w'.life.made = w.life.made ∧ w'.req = w.req ∧ w'.came = w.came := by
    intro x hx
    induction hx with
    | intro x _ ih =>
      rintro w rfl h hs
      by_cases hr : Spec.rests C env o w
      · exact ⟨w, hs, hr, h, rfl, rfl, rfl⟩
      · obtain ⟨w1, h1⟩ : ∃ w1, WWhole.Own C env o w w1 := Classical.byContradiction fun hno => hr fun w1 h1 => hno ⟨w1, h1⟩
        obtain ⟨g1, g2, g3, g4⟩ := h.own h1
        obtain ⟨w', k1, k2, k3, k4, k5, k6⟩ := ih _ (own_less h1 (hnd h) (hnd g1)) w1 rfl g1 (.step hs (.own h1))
        exact ⟨w', k1, k2, k3, k4.trans g2, k5.trans g3, k6.trans g4⟩
  exact key _ (wf.apply _) w rfl h hs

/-- The messages arrive. -/
theorem HasLine.arrives {w0 w : WWhole} {k : Nat} (h : HasLine w k) (hs : WWhole.Steps C env o w0 w) (fs : List LFrame) :
    ∃ w', WWhole.Steps C env o w0 w' ∧ HasLine w' k ∧ w'.life.made = w.life.made ∧ w'.req = w.req ∧ w'.came = fun j => if j = k then w.came k ++ fs else w.came j := by
  induction fs using snoc_induction with
  | nil => exact ⟨w, hs, h, rfl, rfl, by funext j; split <;> simp_all⟩
  | snoc fs f ih =>
    obtain ⟨w1, k1, k2, k3, k4, k5⟩ := ih
    refine ⟨_, .step k1 (.arrive (f := f) k2.newest k2.up), ⟨k2.cur, k2.newest, by simp [LWs.upd, k2.up], by simp [LWs.upd, k2.failed], k2.quit, k2.place⟩, k3, k4, ?_⟩
    funext j
    simp only [k5, if_true]
    split <;> simp

/-- A connection is made. -/
theorem dials {w0 w : WWhole} (hs : WWhole.Steps C env o w0 w) (hp : w.life.place = .top) (hq : w.life.quit = false) (hf : w.free) :
    ∃ w', WWhole.Steps C env o w0 w' ∧ HasLine w' w.life.made ∧ w'.life.made = w.life.made + 1 ∧ w'.req = (fun j => if j = w.life.made then w.conn.request else w.req j) ∧ w'.came = w.came := by
  have s3 := WWhole.Steps.step hs (.own (.quiet hf (.again hp hq) rfl rfl))
  have s4 := WWhole.Steps.step s3 (.own (.dial hf (.dialled rfl) rfl))
  refine ⟨_, s4, ⟨rfl, Nat.lt_succ_self _, ?_, ?_, hq, .inl rfl⟩, rfl, rfl, rfl⟩
  · show (if w.life.made = w.life.made then _ else _ : LConn).up = true
    rw [if_pos rfl]
  · show (if w.life.made = w.life.made then _ else _ : LConn).failed = false
    rw [if_pos rfl]

/-- The connection breaks and another one is made. -/
theorem HasLine.again {w0 w : WWhole} {k : Nat} (h : HasLine w k) (hs : WWhole.Steps C env o w0 w) (hb : (w.life.conn k).buf = []) (hf : w.free) :
    ∃ w', WWhole.Steps C env o w0 w' ∧ HasLine w' w.life.made ∧ w'.life.made = w.life.made + 1 ∧ w'.req = (fun j => if j = w.life.made then w.conn.request else w.req j) ∧ w'.came = w.came := by
  have s1 := WWhole.Steps.step hs (.world (.cut h.newest h.up) (fun j => by simp only [LWs.upd]; split <;> simp_all))
  rcases h.place with hp | ⟨last, hp⟩
  · have s2 := WWhole.Steps.step s1 (.own (.quiet hf (.lost (k := k) hp h.cur (.inr (by simp [LWs.upd, hb]))) rfl rfl))
    have s3 := WWhole.Steps.step s2 (.own (.quiet hf (.broken (k := k) (sub := false) (last := none) rfl h.cur (.inl (by simp [LWs.upd, LWs.connected]))) rfl rfl))
    have g := dials s3 rfl h.quit hf
    exact g
  · have s2 := WWhole.Steps.step s1 (.own (.quiet hf (.broken (k := k) (sub := true) (last := last) hp h.cur (.inr (by simp [LWs.upd, hb]))) rfl rfl))
    have g := dials s2 rfl h.quit hf
    exact g

theorem items_of (ms : List WMsg) : items (.granted :: ms.map fun m => .frame (.item m)) = ms := by
  show List.filterMap item? (ms.map _) = ms
  induction ms with
  | nil => rfl
  | cons m ms ih => rw [List.map_cons, List.filterMap_cons]; simp only [item?]; rw [ih]

theorem clean_of (ms : List WMsg) : Clean (.granted :: ms.map fun m => .frame (.item m)) := by
  intro f hf
  have hf : f ∈ ms.map fun m => LFrame.frame (.item m) := hf
  obtain ⟨m, _, rfl⟩ := List.mem_map.mp hf
  exact ⟨(fun e => by cases e), (fun e => by cases e), (fun e => by cases e)⟩

/-- A consumer that has made its first connection and has handled what came on it. -/
structure ExFirst (ms : List WMsg) (w0 w : WWhole) (seen rest : List WsArgs) : Prop where
  start : WWhole.start exSysCfg 4 = .ok w0
  steps : WWhole.Steps Avro.codec exEnv .plain w0 w
  rested : rests Avro.codec exEnv .plain w
  line : HasLine w 0
  made : w.life.made = 1
  req : w.req 0 = tip 4 exSysCfg.lastHash []
  came : w.came = fun j => if j = 0 then .granted :: ms.map fun m => .frame (.item m) else []
  read : (w.life.conn 0).buf = []
  free : w.free
  split : exTBs = seen ++ rest
  saw : WsSaw exTBs seen w.sys.omp.log
  next : w.conn.request = tip 4 exSysCfg.lastHash seen

theorem ex_first {ms : List WMsg} (hms : InTurn exTBs ms) : ∃ w0 w seen rest, ExFirst ms w0 w seen rest := by
  obtain ⟨w0, h0⟩ : ∃ w, WWhole.start exSysCfg 4 = .ok w := ⟨_, rfl⟩
  have hq : w0.life = LWs.init ∧ w0.free ∧ w0.conn.request = tip 4 exSysCfg.lastHash [] ∧ w0.came = fun _ => [] := by
    unfold WWhole.start at h0
    obtain ⟨s, q1, q2⟩ := bind_ok.mp h0
    cases q2
    unfold Sys.start at q1
    obtain ⟨mp, p1, q1⟩ := bind_ok.mp q1
    obtain ⟨omp, p2, q1⟩ := bind_ok.mp q1
    cases q1
    exact ⟨rfl, ⟨rfl, rfl⟩, rfl, rfl⟩
  obtain ⟨hq1, hq2, hq3, hq4⟩ := hq
  obtain ⟨w2, a2, l2, m2, q2, c2⟩ := dials (C := Avro.codec) (env := exEnv) (o := .plain) (.refl (w := w0)) (by rw [hq1]; rfl) (by rw [hq1]; rfl) hq2
  have made0 : w0.life.made = 0 := by rw [hq1]; rfl
  rw [made0] at l2 m2 q2
  obtain ⟨w3, a3, l3, m3, q3, c3⟩ := l2.arrives a2 (.granted :: ms.map fun m => .frame (.item m))
  obtain ⟨w4, a4, r4, l4, m4, q4, c4⟩ := l3.comes_to_rest a3
  have made4 : w4.life.made = 1 := by rw [m4, m3, m2]
  have came4 : w4.came = fun j => if j = 0 then .granted :: ms.map fun m => .frame (.item m) else [] := by
    rw [c4, c3, c2, hq4]; rfl
  have req4 : w4.req 0 = tip 4 exSysCfg.lastHash [] := by
    rw [q4, q3, q2]; exact hq3
  have clean4 : ∀ k, Clean (w4.came k) := fun k => by
    rw [came4]; show Clean (if k = 0 then _ else _)
    split
    · exact clean_of _
    · intro f hf; cases hf
  have ans4 : ∀ k, k < w4.life.made → Answers exSysCfg 4 exTBs (w4.req k) (items (w4.came k)) := fun k hk => by
    obtain rfl : k = 0 := by omega
    exact ⟨[], exTBs, rfl, req4, by rw [came4]; show InTurn _ (items (.granted :: _)); rw [items_of]; exact hms⟩
  obtain ⟨d4, _, p4⟩ := C122_rest exT_chain h0 a4 clean4 ans4 r4
  obtain ⟨seen, ⟨rest, hb⟩, hsaw, hreq⟩ := (C122_served exT_chain h0 a4 clean4 ans4).2
  have hopen : ∃ k, listens w4 k := by
    rcases p4 with ⟨e, _⟩ | h
    · rcases l4.place with e' | ⟨_, e'⟩ <;> rw [e'] at e <;> cases e
    · exact h
  obtain ⟨k, hl⟩ := hopen
  obtain rfl : k = 0 := by
    have := hl.1
    rw [l4.cur] at this; cases this; rfl
  exact ⟨w0, w4, seen, rest, h0, a4, r4, l4, made4, req4, came4, hl.read, ⟨d4.1, d4.2.1⟩, hb.symm, hsaw, hreq d4⟩

/-- It has lost the connection, has made another one, and has handled what came on that. -/
structure ExSecond (ms0 ms1 : List WMsg) (w0 w : WWhole) (seen : List WsArgs) : Prop where
  steps : WWhole.Steps Avro.codec exEnv .plain w0 w
  rested : rests Avro.codec exEnv .plain w
  made : w.life.made = 2
  req0 : w.req 0 = tip 4 exSysCfg.lastHash []
  req1 : w.req 1 = tip 4 exSysCfg.lastHash seen
  came0 : items (w.came 0) = ms0
  came1 : items (w.came 1) = ms1
  clean : ∀ k, Clean (w.came k)
  answers : ∀ k, k < w.life.made → Answers exSysCfg 4 exTBs (w.req k) (items (w.came k))
  listens : ∃ k, listens w k

theorem ExFirst.second {ms0 ms1 : List WMsg} {w0 w : WWhole} {seen rest : List WsArgs} (h : ExFirst ms0 w0 w seen rest) (h0 : InTurn exTBs ms0) (h1 : InTurn rest ms1) :
    ∃ w', ExSecond ms0 ms1 w0 w' seen := by
  obtain ⟨w5, a5, l5, m5, q5, c5⟩ := h.line.again h.steps h.read h.free
  rw [h.made] at l5 m5 q5
  obtain ⟨w6, a6, l6, m6, q6, c6⟩ := l5.arrives a5 (.granted :: ms1.map fun m => .frame (.item m))
  obtain ⟨w7, a7, r7, l7, m7, q7, c7⟩ := l6.comes_to_rest a6
  have made7 : w7.life.made = 2 := by rw [m7, m6, m5]
  have came7 : w7.came = fun j => if j = 1 then .granted :: ms1.map fun m => .frame (.item m) else if j = 0 then .granted :: ms0.map fun m => .frame (.item m) else [] := by
    rw [c7, c6, c5, h.came]; rfl
  have items0 : items (w7.came 0) = ms0 := by rw [came7]; exact items_of _
  have items1 : items (w7.came 1) = ms1 := by rw [came7]; exact items_of _
  have req70 : w7.req 0 = tip 4 exSysCfg.lastHash [] := by rw [q7, q6, q5]; exact h.req
  have req71 : w7.req 1 = tip 4 exSysCfg.lastHash seen := by rw [q7, q6, q5]; exact h.next
  have clean7 : ∀ k, Clean (w7.came k) := fun k => by
    rw [came7]; show Clean (if k = 1 then _ else if k = 0 then _ else _)
    split
    · exact clean_of _
    · split
      · exact clean_of _
      · intro f hf; cases hf
  have ans7 : ∀ k, k < w7.life.made → Answers exSysCfg 4 exTBs (w7.req k) (items (w7.came k)) := fun k hk => by
    rcases (by omega : k = 0 ∨ k = 1) with rfl | rfl
    · exact ⟨[], exTBs, rfl, req70, by rw [items0]; exact h0⟩
    · exact ⟨seen, rest, h.split, req71, by rw [items1]; exact h1⟩
  have hopen : ∃ k, listens w7 k := by
    rcases (C122_rest exT_chain h.start a7 clean7 ans7 r7).2.2 with ⟨e, _⟩ | h
    · rcases l7.place with e' | ⟨_, e'⟩ <;> rw [e'] at e <;> cases e
    · exact h
  exact ⟨w7, a7, r7, made7, req70, req71, items0, items1, clean7, ans7, hopen⟩

/-- The first connection breaks in the middle of the second block; on the second one the consumer asks for what follows the first block, and gets it: the hypotheses of C122 hold, and its subscribers have seen both. -/
example : ∃ w0 w1 w2 seen rest ms, ExFirst exTFirst w0 w1 seen rest ∧ ExSecond exTFirst ms w0 w2 seen ∧ WsSaw exTBs exTBs w2.sys.omp.log := by
  obtain ⟨w0, w1, seen, rest, h1⟩ := ex_first exT_first
  obtain ⟨ms, hms⟩ := allInTurn_exists exT_chain h1.split
  have hin : InTurn rest ms := by
    obtain ⟨segs, g1, g2⟩ := hms
    exact ⟨segs, g1, by rw [g2]; exact List.prefix_refl _⟩
  obtain ⟨w2, h2⟩ := h1.second exT_first hin
  refine ⟨w0, w1, w2, seen, rest, ms, h1, h2, C122_all exT_chain h1.start h2.steps h2.clean h2.answers h2.rested (k := 1) (by rw [h2.made]) ?_⟩
  intro known rest' e1 e2
  rw [(tip_inj exT_chain e1 h1.split (e2.symm.trans h2.req1)).2, h2.came1]
  exact hms

end Verif
