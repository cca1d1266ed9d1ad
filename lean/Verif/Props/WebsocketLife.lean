import Verif.Proofs.WebsocketLife
/-!
# C102, C103, C104: a websocket consumer starts, becomes ready and closes
-/
namespace Verif

/-- The goroutine of `Start` waits: for the network, or it has returned. -/
def Spec.waits (s : LWs) : Prop := ∀ t, ¬ LWs.Go s t

/-- `Start` cannot return now, or has returned. -/
def Spec.startWaits (s : LWs) : Prop := ∀ t, LWs.World s t → t.started = s.started

/-- Nothing of a closed consumer is left: `Close` has returned, the goroutine has, and no connection is open. -/
structure Spec.closedDown (s : LWs) : Prop where
  returned : s.closer = .done
  ended : s.place = .ended
  down : ∀ k, (s.conn k).up = false

/-- The consumer has a connection, alive or not, and is not trying to make another. -/
structure Spec.settled (s : LWs) : Prop where
  conn : ∃ k, s.cur = some k
  dialing : s.place ≠ .dialing
  resting : s.place ≠ .resting

/-- Messages that have arrived and have not been read. -/
def Spec.unread (s : LWs) : Nat := match s.cur with
  | some k => (s.conn k).buf.length
  | none => 0

/-- Executions with the number of steps the goroutine makes in them. -/
inductive Spec.Runs (s : LWs) : Nat → LWs → Prop
  | refl : Spec.Runs s 0 s
  | go {n t u} : Spec.Runs s n t → LWs.Go t u → Spec.Runs s (n + 1) u
  | world {n t u} : Spec.Runs s n t → LWs.World t u → Spec.Runs s n u
  | shut {n t u} : Spec.Runs s n t → LWs.Shut t u → Spec.Runs s n u

open Spec

/-! ## The executions of the examples -/

theorem LWs.Reach.init : LWs.init.Reach := LWs.Steps.refl
theorem LWs.Reach.go {s t : LWs} (h : s.Reach) (g : LWs.Go s t) : t.Reach := LWs.Steps.step h (.go g)
theorem LWs.Reach.world {s t : LWs} (h : s.Reach) (g : LWs.World s t) : t.Reach := LWs.Steps.step h (.world g)
theorem LWs.Reach.shut {s t : LWs} (h : s.Reach) (g : LWs.Shut s t) : t.Reach := LWs.Steps.step h (.shut g)

/-- A consumer in its first connection, on which the given messages have arrived. -/
def exLife (buf : List LFrame) : LWs :=
  { place := .subscribing, cur := some 0, made := 1,
    conn := fun j => if j = 0 then { up := true, buf := buf, failed := false } else { up := false, buf := [], failed := false },
    quit := false, closer := .idle, tokens := 0, started := false, isReady := false, closes := 0, got := [], grants := 0, losses := 0 }

theorem exLife_reach (buf : List LFrame) : (exLife buf).Reach := by
  have h0 : (exLife []).Reach := (LWs.Reach.init.go (.again rfl rfl)).go (.dialled rfl)
  suffices h : ∀ l b, (exLife b).Reach → (exLife (b ++ l)).Reach by simpa using h buf [] h0
  intro l
  induction l with
  | nil => intro b h; simpa using h
  | cons f l ih =>
    intro b h
    have h1 := h.world (.arrive (k := 0) (f := f) (Nat.zero_lt_one) rfl)
    have e : (exLife b).upd 0 { (exLife b).conn 0 with buf := ((exLife b).conn 0).buf ++ [f] } = exLife (b ++ [f]) := by
      simp only [LWs.upd, exLife, if_true]
      congr 1
      funext j
      split <;> rfl
    rw [e] at h1
    have := ih _ h1
    simpa using this

/-! ## C102 -/

/-- **C102** (partial): when `Start` has returned a connection has been made, and if no connection was lost while the consumer waited for
the answer to its request, a subscription has been granted. -/
theorem C102_partial {s : LWs} (h : s.Reach) (hs : s.started = true) : 1 ≤ s.made ∧ (s.losses = 0 → 1 ≤ s.grants) := by
  have i := h.ok
  have := i.begun hs
  exact ⟨i.some this, fun h => by omega⟩

example : ∃ s : LWs, s.Reach ∧ s.started = true ∧ s.losses = 0 :=
  ⟨_, ((exLife_reach [.granted]).go (.granted rfl rfl rfl rfl)).world (.started rfl (by decide)), rfl, rfl⟩

/-- **C102**: a subscription is counted as granted when the answer on the current connection has a subscription id. -/
theorem C102_grant {s t : LWs} (h : LWs.Step s t) (hg : t.grants ≠ s.grants) :
    ∃ k rest, s.cur = some k ∧ (s.conn k).buf = .granted :: rest ∧ t.place = .reading true none ∧ t.grants = s.grants + 1 := by
  cases h with
  | go h =>
    cases h with
    | again | stop | dialled | refused | rested => exact absurd rfl hg
    | granted hp hc hf hb => exact ⟨_, _, hc, hb, rfl, rfl⟩
    | skipped | lost | broken => exact absurd rfl hg
    | read => exact absurd LWs.receive_same.2.2.2.2.2.2.2.1 hg
  | world h => cases h <;> exact absurd rfl hg
  | shut h => cases h <;> exact absurd rfl hg

example : ∃ s t : LWs, s.Reach ∧ LWs.Step s t ∧ t.grants ≠ s.grants :=
  ⟨_, _, exLife_reach [.granted], .go (.granted rfl rfl rfl rfl), by decide⟩

theorem LWs.quiet_started {s : LWs} (i : s.Ok) (hq : startWaits s) (hg : 1 ≤ s.grants + s.losses) : s.started = true := by
  cases hs : s.started with
  | true => rfl
  | false =>
    have ht := i.queue hs
    have h0 : 0 < s.tokens := by unfold connectedCap at ht; omega
    have := hq _ (.started hs h0)
    rw [hs] at this
    cases this

/-- **C102** (partial): when the answer with the subscription id has arrived, then whatever else happens, as soon as nobody can go on `Start` has
returned. -/
theorem C102_returns_partial {s u : LWs} {k : Nat} (h : s.Reach) (hp : s.place = .subscribing) (hc : s.cur = some k)
    (hf : (s.conn k).failed = false) (hg : LFrame.granted ∈ (s.conn k).buf) (hu : LWs.Steps s u) (hw : waits u) (hq : startWaits u) :
    u.started = true := by
  have hI : (u.place = .subscribing ∧ u.cur = some k ∧ (u.conn k).failed = false ∧ LFrame.granted ∈ (u.conn k).buf) ∨
      1 ≤ u.grants + u.losses := by
    refine hu.keep (P := fun u => (u.place = .subscribing ∧ u.cur = some k ∧ (u.conn k).failed = false ∧
      LFrame.granted ∈ (u.conn k).buf) ∨ 1 ≤ u.grants + u.losses) (.inl ⟨hp, hc, hf, hg⟩) h.ok ?_
    intro a b _ ih hs
    rcases ih with ⟨p1, p2, p3, p4⟩ | ih
    · cases hs with
      | go hs =>
        cases hs with
        | again p _ | stop p _ | dialled p | refused p | rested p | read p | broken p => rw [p1] at p; cases p
        | granted => right; simp [LWs.connected, LWs.upd]; omega
        | @skipped j f rest q1 q2 q3 q4 q5 =>
          rw [p2] at q2; cases q2
          left
          refine ⟨p1, p2, ?_, ?_⟩
          · simp [LWs.upd, p3]
          · rw [q4] at p4
            rcases List.mem_cons.mp p4 with e | e
            · exact absurd e.symm q5
            · simpa [LWs.upd] using e
        | lost => right; simp [LWs.connected, LWs.upd]; omega
      | world hs =>
        left
        cases hs with
        | @arrive j f _ _ =>
          refine ⟨p1, p2, ?_, ?_⟩ <;> simp only [LWs.upd] <;> split
          · rename_i e; subst e; exact p3
          · exact p3
          · rename_i e; subst e; exact List.mem_append_left _ p4
          · exact p4
        | @cut j _ _ =>
          refine ⟨p1, p2, ?_, ?_⟩ <;> simp only [LWs.upd] <;> split
          · rename_i e; subst e; exact p3
          · exact p3
          · rename_i e; subst e; exact p4
          · exact p4
        | started => exact ⟨p1, p2, p3, p4⟩
      | shut hs =>
        left
        cases hs with
        | flag => exact ⟨p1, p2, p3, p4⟩
        | @close j _ _ =>
          refine ⟨p1, p2, ?_, ?_⟩ <;> simp only [LWs.upd] <;> split
          · rename_i e; subst e; exact p3
          · exact p3
          · rename_i e; subst e; exact p4
          · exact p4
        | panic => exact ⟨p1, p2, p3, p4⟩
    · right
      cases hs with
      | go hs =>
        cases hs with
        | granted | lost => simp [LWs.connected, LWs.upd]; omega
        | read =>
          rw [LWs.receive_same.2.2.2.2.2.2.2.1, LWs.receive_same.2.2.2.2.2.2.2.2]; exact ih
        | _ => exact ih
      | world hs => cases hs <;> exact ih
      | shut hs => cases hs <;> exact ih
  have i := LWs.Steps.ok hu h.ok
  rcases hI with ⟨p1, p2, p3, p4⟩ | hI
  · exfalso
    cases hb : (u.conn k).buf with
    | nil => rw [hb] at p4; cases p4
    | cons f rest =>
      by_cases hfg : f = .granted
      · subst hfg; exact hw _ (.granted p1 p2 p3 hb)
      · exact hw _ (.skipped p1 p2 p3 hb hfg)
  · exact LWs.quiet_started i hq hI

example : ∃ s : LWs, s.Reach ∧ s.place = .subscribing ∧ s.cur = some 0 ∧ (s.conn 0).failed = false ∧ LFrame.granted ∈ (s.conn 0).buf :=
  ⟨_, exLife_reach [.frame .ping, .granted], rfl, rfl, rfl, by simp [exLife]⟩

/-- **C102** is false: `Start` returns though no subscription has been granted, when the connection breaks before the answer arrives. -/
theorem C102_refuted : ¬ ∀ s : LWs, s.Reach → s.started = true → 1 ≤ s.grants := by
  intro h
  have r := (((exLife_reach []).world (.cut (k := 0) (by decide) rfl)).go (.lost rfl rfl (.inr ⟨rfl, rfl⟩))).world (.started rfl (by decide))
  exact absurd (h _ r rfl) (by decide)

/-- **C102** is false in the other direction too: a server that refuses the subscription leaves `Start` waiting on an open connection: it neither returns nor
tries again. -/
theorem C102_refused : ∃ s t : LWs, s.Reach ∧ s.place = .subscribing ∧ s.cur = some 0 ∧ (s.conn 0).buf = [.refused] ∧ LWs.Go s t ∧
    waits t ∧ startWaits t ∧ t.started = false ∧ (t.conn 0).up = true := by
  refine ⟨_, _, exLife_reach [.refused], rfl, rfl, rfl, .skipped rfl rfl rfl rfl (by simp), ?_, ?_, rfl, rfl⟩
  · intro u hu
    cases hu with
    | again p _ | stop p _ | dialled p | refused p | rested p | read p | broken p => cases p
    | granted _ p2 _ p4 => cases p2; cases p4
    | skipped _ p2 _ p4 => cases p2; cases p4
    | lost _ p2 p3 =>
      cases p2
      rcases p3 with p3 | p3
      · cases p3
      · cases p3.2
  · intro u hu
    cases hu with
    | arrive | cut => rfl
    | started _ h => cases h

/-! ## C103 -/

/-- **C103**: over all connections `c.ready` is closed at most once, exactly when a `ready` item has been handled, and the goroutine never
dereferences a subscription id it does not have. -/
theorem C103_once {s : LWs} (h : s.Reach) : s.closes ≤ 1 ∧ (s.closes = 1 ↔ WMsg.ready ∈ s.got) ∧ s.place ≠ .crashed := by
  have i := h.ok
  refine ⟨?_, ?_, i.sane⟩
  · rw [i.once]; split <;> omega
  · rw [i.once, ← i.heard]; cases s.isReady <;> simp

/-- Two connections, each with a `ready` item. -/
example : ∃ s : LWs, s.Reach ∧ s.got = [.ready, .ready] ∧ s.made = 2 :=
  ⟨_, (((((((((((exLife_reach [.granted, .frame (.item .ready)]).go (.granted rfl rfl rfl rfl)).go (.read rfl rfl rfl rfl)).world
    (.cut (k := 0) (by decide) rfl)).go (.broken rfl rfl (.inr ⟨rfl, rfl⟩))).go (.again rfl rfl)).go (.dialled rfl)).world
    (.arrive (k := 1) (f := .granted) (by decide) rfl)).go (.granted rfl rfl rfl rfl)).world
    (.arrive (k := 1) (f := .frame (.item .ready)) (by decide) rfl)).go (.read rfl rfl rfl rfl)), rfl, rfl⟩

theorem run_isReady {o : Nat → MapOrder} {c d : WConn} {ms : List WMsg} (h : c.run o ms = .ok d) :
    d.isReady = true ↔ c.isReady = true ∨ WMsg.ready ∈ ms := by
  induction ms generalizing o c with
  | nil => cases h; simp
  | cons m ms ih =>
    unfold WConn.run at h
    split at h
    · cases h
    · rename_i d' h'
      rw [ih h]
      cases m with
      | ready => cases h'; simp
      | reorg => cases h'; simp
      | batch b =>
        cases h'
        have : (c.onBatch (o 0) b).isReady = c.isReady := by
          unfold WConn.onBatch
          split
          split <;> rfl
        rw [this]; simp
      | sub s =>
        cases h'
        have : (c.onSub s).isReady = c.isReady := by
          unfold WConn.onSub
          split
          · rfl
          · dsimp only
            split
            · rfl
            · split <;> rfl
        rw [this]; simp
      | hollow => cases h'
      | unknown => cases h'; simp

/-- **C103**, the assembler of blocks: the model of what one connection brings, too, has a consumer ready exactly when it has seen a `ready` item. -/
theorem C103_assembler {o : Nat → MapOrder} {num : Int} {hash : Hash} {ms : List WMsg} {d : WConn} (h : (WConn.new num hash).run o ms = .ok d) :
    d.isReady = true ↔ WMsg.ready ∈ ms := by
  rw [run_isReady h]
  simp [WConn.new]

example : ∃ d, (WConn.new 5 Hash.zero).run (fun _ => .plain) [.unknown, .ready] = .ok d := ⟨_, rfl⟩

theorem LWs.receive_got {s : LWs} {last : Option WMsg} {f : WFrame} {m : WMsg} (h : m ∈ s.got) : m ∈ (s.receive true last f).got := by
  cases f <;> cases last <;> simp [LWs.receive, LWs.handle, h]

theorem LWs.Step.got {s t : LWs} (i : s.Ok) (h : LWs.Step s t) {m : WMsg} (hm : m ∈ s.got) : m ∈ t.got := by
  cases h with
  | go h =>
    cases h with
    | @read k sub last f rest hp hc hf hb =>
      cases sub with
      | true => exact LWs.receive_got (by exact hm)
      | false => have := i.nosub (by rw [hp]; rfl) k hc; rw [hf] at this; cases this
    | _ => exact hm
  | world h => cases h <;> exact hm
  | shut h => cases h <;> exact hm

/-- **C103**: when a `ready` item has arrived on a connection with a subscription, then whatever else happens, as soon as the goroutine has
nothing more to read `c.ready` has been closed. -/
theorem C103_becomes {s u : LWs} {k : Nat} {l : Option WMsg} (h : s.Reach) (hp : s.place = .reading true l) (hc : s.cur = some k)
    (hf : (s.conn k).failed = false) (hg : LFrame.frame (.item .ready) ∈ (s.conn k).buf) (hu : LWs.Steps s u) (hw : waits u) : u.closes = 1 := by
  have hI : (∃ l, u.place = .reading true l ∧ u.cur = some k ∧ (u.conn k).failed = false ∧ LFrame.frame (.item .ready) ∈ (u.conn k).buf) ∨
      WMsg.ready ∈ u.got := by
    refine hu.keep (P := fun u => (∃ l, u.place = .reading true l ∧ u.cur = some k ∧ (u.conn k).failed = false ∧
      LFrame.frame (.item .ready) ∈ (u.conn k).buf) ∨ WMsg.ready ∈ u.got) (.inl ⟨l, hp, hc, hf, hg⟩) h.ok ?_
    intro a b ia ih hs
    rcases ih with ⟨l, p1, p2, p3, p4⟩ | ih
    · cases hs with
      | go hs =>
        cases hs with
        | again p _ | stop p _ | dialled p | refused p | rested p | granted p | skipped p | lost p => rw [p1] at p; cases p
        | @read j sub last f rest q1 q2 q3 q4 =>
          rw [p2] at q2; cases q2
          rw [p1] at q1; cases q1
          rw [q4] at p4
          rcases List.mem_cons.mp p4 with e | e
          · subst e
            right
            simp [LWs.receive, LFrame.seen, LWs.handle]
          · left
            obtain ⟨e1, e2, e3, _⟩ := LWs.receive_same (s := a.upd k { a.conn k with buf := rest }) (sub := true) (f := f.seen) (last := l)
            obtain ⟨l', e4⟩ := LWs.receive_open (s := a.upd k { a.conn k with buf := rest }) (f := f.seen) (last := l)
              (by simpa [LWs.upd] using p1)
            refine ⟨l', e4, ?_, ?_, ?_⟩
            · rw [e1]; exact p2
            · rw [e3]; simp [LWs.upd, p3]
            · rw [e3]; simpa [LWs.upd] using e
        | @broken j sub last q1 q2 q3 =>
          rw [p2] at q2; cases q2
          rcases q3 with q3 | q3
          · rw [p3] at q3; cases q3
          · rw [q3.1] at p4; cases p4
      | world hs =>
        left
        cases hs with
        | @arrive j f _ _ =>
          refine ⟨l, p1, p2, ?_, ?_⟩ <;> simp only [LWs.upd] <;> split
          · rename_i e; subst e; exact p3
          · exact p3
          · rename_i e; subst e; exact List.mem_append_left _ p4
          · exact p4
        | @cut j _ _ =>
          refine ⟨l, p1, p2, ?_, ?_⟩ <;> simp only [LWs.upd] <;> split
          · rename_i e; subst e; exact p3
          · exact p3
          · rename_i e; subst e; exact p4
          · exact p4
        | started => exact ⟨l, p1, p2, p3, p4⟩
      | shut hs =>
        left
        cases hs with
        | flag => exact ⟨l, p1, p2, p3, p4⟩
        | @close j _ _ =>
          refine ⟨l, p1, p2, ?_, ?_⟩ <;> simp only [LWs.upd] <;> split
          · rename_i e; subst e; exact p3
          · exact p3
          · rename_i e; subst e; exact p4
          · exact p4
        | panic => exact ⟨l, p1, p2, p3, p4⟩
    · exact .inr (hs.got ia ih)
  have i := LWs.Steps.ok hu h.ok
  rcases hI with ⟨l, p1, p2, p3, p4⟩ | hI
  · exfalso
    cases hb : (u.conn k).buf with
    | nil => rw [hb] at p4; cases p4
    | cons f rest => exact hw _ (.read p1 p2 p3 hb)
  · rw [i.once, i.heard.mpr hI]; rfl

example : ∃ s : LWs, s.Reach ∧ s.place = .reading true none ∧ s.cur = some 0 ∧ (s.conn 0).failed = false ∧
    LFrame.frame (.item .ready) ∈ (s.conn 0).buf :=
  ⟨_, (exLife_reach [.granted, .frame .junk, .frame (.item .ready)]).go (.granted rfl rfl rfl rfl), rfl, rfl, rfl,
    by simp [exLife, LWs.connected, LWs.upd]⟩

/-! ## C104 -/

/-- What holds after `Close` has been called on a settled consumer. -/
structure LWs.Going (m : Nat) (s : LWs) : Prop where
  quit : s.quit = true
  called : s.closer ≠ .idle
  calm : s.closer ≠ .crashed
  conn : ∃ k, s.cur = some k
  place : s.place ≠ .dialing ∧ s.place ≠ .resting
  made : s.made = m
  down : s.closer = .done → ∀ k, (s.conn k).up = false

theorem LWs.Step.going {m : Nat} {s t : LWs} (i : s.Ok) (g : s.Going m) (h : LWs.Step s t) : t.Going m := by
  obtain ⟨g1, g2, g3, ⟨k, g4⟩, ⟨g5, g6⟩, g7, g8⟩ := g
  have hdown : ∀ j (c : LConn), c.up = (s.conn j).up → s.closer = .done → ∀ n, ((s.upd j c).conn n).up = false := by
    intro j c hc hd n
    simp only [LWs.upd]
    split
    · rw [hc]; exact g8 hd j
    · exact g8 hd n
  cases h with
  | go h =>
    cases h with
    | again _ q => rw [g1] at q; cases q
    | stop p q => exact ⟨g1, g2, g3, ⟨k, g4⟩, ⟨by simp, by simp⟩, g7, g8⟩
    | dialled p => exact absurd p g5
    | refused p => exact absurd p g5
    | rested p => exact absurd p g6
    | granted p q => exact ⟨g1, g2, g3, ⟨k, g4⟩, ⟨by simp [LWs.connected], by simp [LWs.connected]⟩, g7, hdown _ _ rfl⟩
    | skipped p q => exact ⟨g1, g2, g3, ⟨k, g4⟩, ⟨g5, g6⟩, g7, hdown _ _ rfl⟩
    | lost p q => exact ⟨g1, g2, g3, ⟨k, g4⟩, ⟨by simp [LWs.connected], by simp [LWs.connected]⟩, g7, hdown _ _ rfl⟩
    | @read j sub last f rest p q r w =>
      cases sub with
      | false => have := i.nosub (by rw [p]; rfl) j q; rw [r] at this; cases this
      | true =>
        obtain ⟨e1, e2, e3, e4, e5, _⟩ := LWs.receive_same (s := s.upd j { s.conn j with buf := rest }) (sub := true) (f := f.seen) (last := last)
        obtain ⟨l', e⟩ := LWs.receive_open (s := s.upd j { s.conn j with buf := rest }) (f := f.seen) (last := last)
          (by simpa [LWs.upd] using p)
        refine ⟨by rw [e4]; exact g1, by rw [e5]; exact g2, by rw [e5]; exact g3, ⟨k, by rw [e1]; exact g4⟩, ?_, by rw [e2]; exact g7, ?_⟩
        · rw [e]; simp
        · rw [e5, e3]; exact hdown _ _ rfl
    | broken p q => exact ⟨g1, g2, g3, ⟨k, g4⟩, ⟨by simp, by simp⟩, g7, hdown _ _ rfl⟩
  | world h =>
    cases h with
    | arrive p q => exact ⟨g1, g2, g3, ⟨k, g4⟩, ⟨g5, g6⟩, g7, hdown _ _ rfl⟩
    | @cut j p q =>
      refine ⟨g1, g2, g3, ⟨k, g4⟩, ⟨g5, g6⟩, g7, ?_⟩
      intro hd n
      simp only [LWs.upd]
      split
      · rfl
      · exact g8 hd n
    | started => exact ⟨g1, g2, g3, ⟨k, g4⟩, ⟨g5, g6⟩, g7, g8⟩
  | shut h =>
    cases h with
    | flag p => exact absurd p g2
    | @close j p q =>
      refine ⟨g1, by simp, by simp, ⟨k, g4⟩, ⟨g5, g6⟩, g7, ?_⟩
      intro _ n
      simp only [LWs.upd]
      split
      · rfl
      · rename_i hn
        cases hu : (s.conn n).up with
        | false => rfl
        | true => have := (i.only n hu).1; rw [q] at this; cases this; exact absurd rfl hn
    | panic p q => rw [g4] at q; cases q

theorem LWs.flag_going {s t : LWs} (hc : s.closer = .idle) (hs : settled s) (hf : LWs.Shut s t) : t.Going t.made := by
  cases hf with
  | flag _ => exact ⟨rfl, by simp, by simp, hs.conn, ⟨hs.dialing, hs.resting⟩, rfl, by intro h; cases h⟩
  | close p _ => rw [hc] at p; cases p
  | panic p _ => rw [hc] at p; cases p

/-- **C104** (partial): when `Close` is called on a consumer that has a connection and is not making another, then whatever happens after, `Close` does
not panic, no other connection is made, no connection is open once it has returned, and as soon as nobody can go on the consumer is closed. -/
theorem C104_partial {s t u : LWs} (h : s.Reach) (hc : s.closer = .idle) (hs : settled s) (hf : LWs.Shut s t) (hu : LWs.Steps t u) :
    u.closer ≠ .crashed ∧ u.made = s.made ∧ (u.closer = .done → ∀ k, (u.conn k).up = false) ∧
    (waits u → (∀ v, ¬ LWs.Shut u v) → closedDown u) := by
  have it : t.Ok := hf.ok h.ok
  have hm : t.made = s.made := by cases hf <;> rfl
  have g : u.Going t.made := hu.keep (P := fun u => u.Going t.made) (LWs.flag_going hc hs hf) it
    (fun a b ia g hs => hs.going ia g)
  have i := LWs.Steps.ok hu it
  refine ⟨g.calm, by rw [g.made, hm], g.down, ?_⟩
  intro hw hsh
  obtain ⟨k, hk⟩ := g.conn
  have hd : u.closer = .done := by
    cases hcl : u.closer with
    | idle => exact absurd hcl g.called
    | crashed => exact absurd hcl g.calm
    | flagged => exact absurd (.close hcl hk) (hsh _)
    | done => rfl
  have hdown := g.down hd
  refine ⟨hd, ?_, hdown⟩
  have hstuck : ∀ (hb : (u.conn k).buf = []), (u.conn k).failed = true ∨ ((u.conn k).buf = [] ∧ (u.conn k).up = false) :=
    fun hb => .inr ⟨hb, hdown k⟩
  cases hp : u.place with
  | top => exact absurd (.stop hp g.quit) (hw _)
  | dialing => exact absurd hp g.place.1
  | resting => exact absurd hp g.place.2
  | crashed => exact absurd hp i.sane
  | ended => rfl
  | subscribing =>
    exfalso
    cases hfl : (u.conn k).failed with
    | true => exact hw _ (.lost hp hk (.inl hfl))
    | false =>
      cases hb : (u.conn k).buf with
      | nil => exact hw _ (.lost hp hk (hstuck hb))
      | cons f rest =>
        by_cases hfg : f = .granted
        · subst hfg; exact hw _ (.granted hp hk hfl hb)
        · exact hw _ (.skipped hp hk hfl hb hfg)
  | reading sub last =>
    exfalso
    cases hfl : (u.conn k).failed with
    | true => exact hw _ (.broken hp hk (.inl hfl))
    | false =>
      cases hb : (u.conn k).buf with
      | nil => exact hw _ (.broken hp hk (hstuck hb))
      | cons f rest => exact hw _ (.read hp hk hfl hb)

/-- The steps left. -/
def LPlace.left : LPlace → Nat
  | .subscribing => 3
  | .reading _ _ => 2
  | .top => 1
  | _ => 0

theorem Spec.Runs.steps {s t : LWs} {n : Nat} (h : Runs s n t) : LWs.Steps s t := by
  induction h with
  | refl => exact .refl
  | go _ g ih => exact .step ih (.go g)
  | world _ g ih => exact .step ih (.world g)
  | shut _ g ih => exact .step ih (.shut g)

/-- **C104** (partial): once `Close` of such a consumer has returned, the goroutine makes at most as many steps as there are messages it has not read, and three. -/
theorem C104_ends_partial {s t u v : LWs} {n : Nat} (h : s.Reach) (hc : s.closer = .idle) (hs : settled s) (hf : LWs.Shut s t)
    (hu : LWs.Steps t u) (hd : u.closer = .done) (hr : Runs u n v) : n ≤ unread u + 3 := by
  have it : t.Ok := hf.ok h.ok
  have iu := LWs.Steps.ok hu it
  have gu : u.Going t.made := hu.keep (P := fun u => u.Going t.made) (LWs.flag_going hc hs hf) it
    (fun a b ia g hs => hs.going ia g)
  have key : v.closer = .done ∧ n + unread v + v.place.left ≤ unread u + u.place.left := by
    induction hr with
    | refl => exact ⟨hd, by omega⟩
    | @go n a b ha hg ih =>
      obtain ⟨ih1, ih2⟩ := ih
      have ia := LWs.Steps.ok ha.steps iu
      have ga : a.Going t.made := ha.steps.keep (P := fun u => u.Going t.made) gu iu (fun a b ia g hs => hs.going ia g)
      cases hg with
      | again _ q => rw [ga.quit] at q; cases q
      | stop p q => refine ⟨ih1, ?_⟩; rw [p] at ih2; simp only [LPlace.left, unread] at ih2 ⊢; omega
      | dialled p => exact absurd p ga.place.1
      | refused p => exact absurd p ga.place.1
      | rested p => exact absurd p ga.place.2
      | granted p q r w =>
        refine ⟨ih1, ?_⟩
        rw [p] at ih2
        simp [LPlace.left, unread, LWs.connected, LWs.upd, q, w] at ih2 ⊢; omega
      | skipped p q r w =>
        refine ⟨ih1, ?_⟩
        simp [LPlace.left, unread, LWs.upd, p, q, w] at ih2 ⊢; omega
      | lost p q r =>
        refine ⟨ih1, ?_⟩
        simp [LPlace.left, unread, LWs.connected, LWs.upd, p, q] at ih2 ⊢; omega
      | @read j sub last f rest p q r w =>
        cases sub with
        | false => have := ia.nosub (by rw [p]; rfl) j q; rw [r] at this; cases this
        | true =>
          obtain ⟨e1, e2, e3, e4, e5, _⟩ := LWs.receive_same (s := a.upd j { a.conn j with buf := rest }) (sub := true) (f := f.seen) (last := last)
          obtain ⟨l', e⟩ := LWs.receive_open (s := a.upd j { a.conn j with buf := rest }) (f := f.seen) (last := last)
            (by simpa [LWs.upd] using p)
          refine ⟨by rw [e5]; exact ih1, ?_⟩
          rw [e]
          simp only [unread]
          rw [e1, e3]
          simp [LPlace.left, unread, LWs.upd, p, q, w] at ih2 ⊢; omega
      | broken p q r =>
        refine ⟨ih1, ?_⟩
        simp [LPlace.left, unread, LWs.upd, p, q] at ih2 ⊢; omega
    | @world n a b ha hg ih =>
      obtain ⟨ih1, ih2⟩ := ih
      have ga : a.Going t.made := ha.steps.keep (P := fun u => u.Going t.made) gu iu (fun a b ia g hs => hs.going ia g)
      cases hg with
      | arrive p q => rw [ga.down ih1] at q; cases q
      | cut p q => rw [ga.down ih1] at q; cases q
      | started => exact ⟨ih1, ih2⟩
    | @shut n a b ha hg ih =>
      obtain ⟨ih1, ih2⟩ := ih
      cases hg with
      | flag p => rw [ih1] at p; cases p
      | close p => rw [ih1] at p; cases p
      | panic p => rw [ih1] at p; cases p
  have : u.place.left ≤ 3 := by cases u.place <;> simp [LPlace.left]
  omega

example : ∃ s t u v : LWs, s.Reach ∧ s.closer = .idle ∧ settled s ∧ LWs.Shut s t ∧ LWs.Steps t u ∧ u.closer = .done ∧ Runs u 5 v ∧ v.place = .ended :=
  ⟨_, _, _, _, exLife_reach [.frame .ping, .granted, .frame (.item .ready)], rfl, ⟨⟨0, rfl⟩, by simp [exLife], by simp [exLife]⟩,
    .flag rfl, .step .refl (.shut (.close rfl rfl)), rfl,
    .go (.go (.go (.go (.go .refl (.skipped rfl rfl rfl rfl (by simp))) (.granted rfl rfl rfl rfl)) (.read rfl rfl rfl rfl))
      (.broken rfl rfl (.inr ⟨rfl, rfl⟩))) (.stop rfl rfl), rfl⟩

/-- **C104** (partial): after `Close` has been called, whenever that was, at most one more connection is made. -/
theorem C104_bound_partial {s t u : LWs} (hf : s.closer = .idle) (ht : LWs.Shut s t) (hu : LWs.Steps t u) :
    u.made ≤ s.made + 1 := by
  have hq : t.quit = true ∧ t.made = s.made := by
    cases ht with
    | flag => exact ⟨rfl, rfl⟩
    | close p => rw [hf] at p; cases p
    | panic p => rw [hf] at p; cases p
  have : u.quit = true ∧ u.made ≤ s.made + 1 ∧ (u.place = .dialing → u.made = s.made) := by
    induction hu with
    | refl => exact ⟨hq.1, by omega, fun _ => hq.2⟩
    | step _ h ih =>
      obtain ⟨i1, i2, i3⟩ := ih
      cases h with
      | go h =>
        cases h with
        | again _ q => rw [i1] at q; cases q
        | stop => exact ⟨i1, i2, by simp⟩
        | dialled p => refine ⟨i1, ?_, by simp⟩; have := i3 p; simp only; omega
        | refused => exact ⟨i1, i2, by simp⟩
        | rested => exact ⟨i1, i2, by simp⟩
        | granted => exact ⟨i1, i2, by simp [LWs.connected]⟩
        | skipped => exact ⟨i1, i2, i3⟩
        | lost => exact ⟨i1, i2, by simp [LWs.connected]⟩
        | @read k sub last f rest p q r w =>
          refine ⟨by rw [LWs.receive_same.2.2.2.1]; exact i1, by rw [LWs.receive_same.2.1]; exact i2, ?_⟩
          intro hp
          exfalso
          revert hp
          cases hfs : f.seen <;> cases last <;> cases sub <;> simp [LWs.receive, LWs.handle, LWs.upd, p]
        | broken => exact ⟨i1, i2, by simp⟩
      | world h => cases h <;> exact ⟨i1, i2, i3⟩
      | shut h => cases h <;> exact ⟨by first | exact i1 | rfl, i2, i3⟩
  exact this.2.1

/-- **C104** is false: `Close` during an outage panics, because the failed `Dial` has left `c.conn` nil. -/
theorem C104_panics : ∃ s t u v : LWs, s.Reach ∧ s.made = 1 ∧ s.closer = .idle ∧ LWs.Shut s t ∧ LWs.Steps t u ∧ LWs.Shut u v ∧ v.closer = .crashed :=
  ⟨_, _, _, _, ((((((exLife_reach [.granted]).go (.granted rfl rfl rfl rfl)).world (.cut (k := 0) (by decide) rfl)).go
    (.broken rfl rfl (.inr ⟨rfl, rfl⟩))).go (.again rfl rfl)).go (.refused rfl)), rfl, rfl, .flag rfl, .refl, .panic rfl rfl, rfl⟩

/-- **C104** is false: when `Close` is called while the consumer makes a new connection, it closes the old one and returns, and the new connection stays open: the
goroutine goes on handling what the server sends. -/
theorem C104_survives : ∃ s u : LWs, s.Reach ∧ s.closer = .done ∧ LWs.Steps s u ∧ waits u ∧ (∀ v, ¬ LWs.Shut u v) ∧ (u.conn 1).up = true ∧
    s.got = [] ∧ u.got = [.ready] := by
  refine ⟨_, _, (((((((exLife_reach [.granted]).go (.granted rfl rfl rfl rfl)).world (.cut (k := 0) (by decide) rfl)).go
    (.broken rfl rfl (.inr ⟨rfl, rfl⟩))).go (.again rfl rfl)).shut (.flag rfl)).shut (.close (k := 0) rfl rfl)), rfl,
    .step (.step (.step (.step (.step .refl (.go (.dialled rfl))) (.world (.arrive (k := 1) (f := .granted) (by decide) rfl)))
      (.go (.granted rfl rfl rfl rfl))) (.world (.arrive (k := 1) (f := .frame (.item .ready)) (by decide) rfl)))
      (.go (.read rfl rfl rfl rfl)), ?_, ?_, rfl, rfl, rfl⟩
  · intro v hv
    cases hv with
    | again p | stop p | dialled p | refused p | rested p | granted p | skipped p | lost p => cases p
    | read p q r w => cases q; cases w
    | broken p q r =>
      cases q
      rcases r with r | r
      · cases r
      · cases r.2
  · intro v hv
    cases hv with
    | flag p | close p | panic p => cases p

/-- **C104** is false. -/
theorem C104_refuted : ¬ ∀ u : LWs, u.Reach → u.closer ≠ .idle → waits u → (∀ v, ¬ LWs.Shut u v) → closedDown u := by
  intro h
  obtain ⟨s, u, h1, h2, h3, h4, h5, h6, _⟩ := C104_survives
  have hu : u.Reach := LWs.Steps.trans h1 h3
  have hne : u.closer ≠ .idle := by
    have : s.quit = true := (LWs.Reach.ok h1).flag.mpr (by rw [h2]; simp)
    have hq : u.quit = true := by
      clear h4 h5 h6 hu
      refine h3.keep (P := fun u => u.quit = true) this (LWs.Reach.ok h1) ?_
      intro a b _ ha hs
      cases hs with
      | go hs =>
        cases hs with
        | read => rw [LWs.receive_same.2.2.2.1]; exact ha
        | _ => exact ha
      | world hs => cases hs <;> exact ha
      | shut hs => cases hs <;> first | exact ha | rfl
    exact (LWs.Reach.ok hu).flag.mp hq
  have := (h u hu hne h4 h5).down 1
  rw [h6] at this
  cases this

end Verif
