import Verif.Spec.Client
import Verif.Props.WhateverSubscribers
/-! C159: a client of updates and reorgs. -/
namespace Verif
open Spec

variable {C : Codec} {env : Env} {o : MapOrder} {cfg : Config} {todo : List Call} {s0 s1 s : FSys} {i j n : Nat} {l : List Ev}

/-- A client's joining is two steps. -/
theorem clientJoins_steps (cap cap' : Nat) : FSys.Steps C env o s (clientJoins s cap cap') := by
  have := FSys.Steps.step (.step (FSys.Steps.refl (C := C) (env := env) (o := o) (s := s)) (.subscribe (k := .updates) (cap := cap))) (.subscribe (k := .reorgs) (cap := cap'))
  simpa [clientJoins, FSys.begun, Kind.byCaller] using this

theorem Spec.ClientReads.steps (h : ClientReads C env o i j s1 s l) : FSys.Steps C env o s1 s := by
  induction h with
  | refl => exact .refl
  | step _ h ih => exact .step ih h

/-- The two channels of a client, unbuffered: what it has read and what is offered to it are the updates and reorgs whose sending has begun. -/
structure ClientInv (i j n : Nat) (s : FSys) (l : List Ev) (x y : SubCh) : Prop where
  atx : s.subs[i]? = some x
  aty : s.subs[j]? = some y
  kx : x.kind = .updates
  ky : y.kind = .reorgs
  cx : x.cap = 0
  cy : y.cap = 0
  bx : x.buf = []
  bY : y.buf = []
  one : x.due = none ∨ y.due = none
  le : n ≤ s.begunO.length
  all : x.live = true → y.live = true → l ++ x.due.toList ++ y.due.toList = (s.begunO.drop n).filter ofChain

theorem gains_same {s s' : FSys} {x x' : SubCh} (h : s.subs[i]? = some x) (h' : s'.subs[i]? = some x') (e : x'.got = x.got) : gains s s' i = [] := by
  simp [gains, gotAt, h, h', e]

theorem gains_more {s s' : FSys} {x x' : SubCh} {t : List Ev} (h : s.subs[i]? = some x) (h' : s'.subs[i]? = some x') (e : x'.got = x.got ++ t) : gains s s' i = t := by
  simp [gains, gotAt, h, h', e]

theorem offer_got (e : Ev) (x : SubCh) : (x.offer e).got = x.got ∧ (x.offer e).kind = x.kind ∧ (x.offer e).cap = x.cap ∧ (x.offer e).buf = x.buf ∧ (x.offer e).live = x.live := by
  unfold SubCh.offer; split <;> simp

/-- One channel of the list is changed. -/
theorem replaced {a r : List SubCh} {z z' x : SubCh} (h : (a ++ z :: r)[i]? = some x) :
    (i = a.length ∧ x = z ∧ (a ++ z' :: r)[i]? = some z') ∨ (i ≠ a.length ∧ (a ++ z' :: r)[i]? = some x) := by
  by_cases e : i = a.length
  · subst e
    refine .inl ⟨rfl, ?_, by simp⟩
    simpa using h.symm
  · refine .inr ⟨e, ?_⟩
    rw [← h]
    by_cases hlt : i < a.length
    · rw [List.getElem?_append_left hlt, List.getElem?_append_left hlt]
    · obtain ⟨k, hk⟩ : ∃ k, i - a.length = k + 1 := ⟨i - a.length - 1, by omega⟩
      rw [List.getElem?_append_right (by omega), List.getElem?_append_right (by omega), hk]
      simp

theorem ClientInv.same {x y : SubCh} {s s' : FSys} (h : ClientInv i j n s l x y) (hs : s'.subs = s.subs) (hb : s'.begunO = s.begunO) :
    ClientInv i j n s' (l ++ gains s s' i ++ gains s s' j) x y := by
  have e1 := gains_same (s' := s') h.atx (by rw [hs]; exact h.atx) rfl
  have e2 := gains_same (s' := s') h.aty (by rw [hs]; exact h.aty) rfl
  rw [e1, e2, List.append_nil, List.append_nil]
  exact ⟨by rw [hs]; exact h.atx, by rw [hs]; exact h.aty, h.kx, h.ky, h.cx, h.cy, h.bx, h.bY, h.one, by rw [hb]; exact h.le, by rw [hb]; exact h.all⟩

theorem ClientInv.step {x y : SubCh} {s s' : FSys} (hij : i ≠ j) (h : ClientInv i j n s l x y) (hs : FSys.Step C env o s s') :
    ∃ x' y', ClientInv i j n s' (l ++ gains s s' i ++ gains s s' j) x' y' := by
  have mx : x ∈ s.subs := List.mem_of_getElem? h.atx
  have my : y ∈ s.subs := List.mem_of_getElem? h.aty
  cases hs with
  | subscribe =>
    have a1 : (s.subs ++ [SubCh.fresh ‹Kind› ‹Nat› (s.begun ‹Kind›).length])[i]? = some x := by
      rw [List.getElem?_append_left (List.getElem?_eq_some_iff.mp h.atx).1]; exact h.atx
    have a2 : (s.subs ++ [SubCh.fresh ‹Kind› ‹Nat› (s.begun ‹Kind›).length])[j]? = some y := by
      rw [List.getElem?_append_left (List.getElem?_eq_some_iff.mp h.aty).1]; exact h.aty
    refine ⟨x, y, ?_⟩
    rw [gains_same h.atx a1 rfl, gains_same h.aty a2 rfl, List.append_nil, List.append_nil]
    exact { h with atx := a1, aty := a2 }
  | @unsubscribe a r z hz =>
    have hx := h.atx
    have hy := h.aty
    rw [hz] at hx hy
    have ry := replaced (z' := { z with due := none, live := false }) hy
    rcases replaced (z' := { z with due := none, live := false }) hx with ⟨p1, rfl, p3⟩ | ⟨p1, p3⟩ <;> rcases ry with ⟨q1, rfl, q3⟩ | ⟨q1, q3⟩
    · exact absurd (p1.trans q1.symm) hij
    · refine ⟨{ x with due := none, live := false }, y, ?_⟩
      rw [gains_same h.atx p3 (by rfl), gains_same h.aty q3 (by rfl), List.append_nil, List.append_nil]
      exact { h with atx := p3, aty := q3, kx := h.kx, cx := h.cx, bx := h.bx, one := .inl rfl, all := fun e => by simp at e }
    · refine ⟨x, { y with due := none, live := false }, ?_⟩
      rw [gains_same h.atx p3 (by rfl), gains_same h.aty q3 (by rfl), List.append_nil, List.append_nil]
      exact { h with atx := p3, aty := q3, ky := h.ky, cy := h.cy, bY := h.bY, one := .inr rfl, all := fun _ e => by simp at e }
    · refine ⟨x, y, ?_⟩
      rw [gains_same h.atx p3 (by rfl), gains_same h.aty q3 (by rfl), List.append_nil, List.append_nil]
      exact { h with atx := p3, aty := q3 }
  | work hw =>
    cases hw with
    | call _ _ _ _ => exact ⟨x, y, h.same rfl rfl⟩
    | accept _ _ _ _ => exact ⟨x, y, h.same rfl rfl⟩
    | op _ _ _ _ => exact ⟨x, y, h.same rfl rfl⟩
    | @beginC e _ _ _ _ =>
      have ex : x.offer (.c e) = x := by simp [SubCh.offer, h.kx, Kind.takes]
      have ey : y.offer (.c e) = y := by simp [SubCh.offer, h.ky, Kind.takes]
      have a1 : (s.subs.map (SubCh.offer (.c e)))[i]? = some x := by rw [List.getElem?_map, h.atx, Option.map_some, ex]
      have a2 : (s.subs.map (SubCh.offer (.c e)))[j]? = some y := by rw [List.getElem?_map, h.aty, Option.map_some, ey]
      refine ⟨x, y, ?_⟩
      rw [gains_same h.atx a1 rfl, gains_same h.aty a2 rfl, List.append_nil, List.append_nil]
      exact { h with atx := a1, aty := a2 }
    | @beginO e _ hq hf =>
      have dx : x.due = none := hf x mx (by rw [h.kx]; rfl)
      have dy : y.due = none := hf y my (by rw [h.ky]; rfl)
      have a1 : (s.subs.map (SubCh.offer (.o e)))[i]? = some (x.offer (.o e)) := by rw [List.getElem?_map, h.atx, Option.map_some]
      have a2 : (s.subs.map (SubCh.offer (.o e)))[j]? = some (y.offer (.o e)) := by rw [List.getElem?_map, h.aty, Option.map_some]
      obtain ⟨x1, x2, x3, x4, x5⟩ := offer_got (.o e) x
      obtain ⟨y1, y2, y3, y4, y5⟩ := offer_got (.o e) y
      refine ⟨x.offer (.o e), y.offer (.o e), ?_⟩
      rw [gains_same h.atx a1 x1, gains_same h.aty a2 y1, List.append_nil, List.append_nil]
      refine ⟨a1, a2, x2.trans h.kx, y2.trans h.ky, x3.trans h.cx, y3.trans h.cy, x4.trans h.bx, y4.trans h.bY, ?_, by simp only [List.length_append]; have := h.le; omega, fun lx ly => ?_⟩
      · cases e <;> simp [SubCh.offer, h.kx, h.ky, Kind.takes, dx, dy]
      · rw [x5] at lx; rw [y5] at ly
        have := h.all lx ly
        rw [dx, dy] at this
        simp only [Option.toList_none, List.append_nil] at this
        simp only []
        rw [List.drop_append_of_le_length h.le, List.filter_append, ← this]
        cases e <;> simp [SubCh.offer, h.kx, h.ky, Kind.takes, dx, dy, lx, ly] <;> rfl
    | @put a r z e hz hd hroom =>
      have hx := h.atx
      have hy := h.aty
      rw [hz] at hx hy
      rcases replaced (z' := { z with buf := z.buf ++ [e], due := none }) hx with ⟨p1, rfl, p3⟩ | ⟨p1, p3⟩
      · rw [h.cx] at hroom; omega
      rcases replaced (z' := { z with buf := z.buf ++ [e], due := none }) hy with ⟨q1, rfl, q3⟩ | ⟨q1, q3⟩
      · rw [h.cy] at hroom; omega
      refine ⟨x, y, ?_⟩
      rw [gains_same h.atx p3 (by rfl), gains_same h.aty q3 (by rfl), List.append_nil, List.append_nil]
      exact { h with atx := p3, aty := q3 }
    | @take a r z e b hz hb =>
      have hx := h.atx
      have hy := h.aty
      rw [hz] at hx hy
      rcases replaced (z' := { z with got := z.got ++ [e], buf := b }) hx with ⟨p1, rfl, p3⟩ | ⟨p1, p3⟩
      · rw [h.bx] at hb; simp at hb
      rcases replaced (z' := { z with got := z.got ++ [e], buf := b }) hy with ⟨q1, rfl, q3⟩ | ⟨q1, q3⟩
      · rw [h.bY] at hb; simp at hb
      refine ⟨x, y, ?_⟩
      rw [gains_same h.atx p3 (by rfl), gains_same h.aty q3 (by rfl), List.append_nil, List.append_nil]
      exact { h with atx := p3, aty := q3 }
    | @meet a r z e hz hd hb =>
      have hx := h.atx
      have hy := h.aty
      rw [hz] at hx hy
      have ry := replaced (z' := { z with got := z.got ++ [e], due := none }) hy
      rcases replaced (z' := { z with got := z.got ++ [e], due := none }) hx with ⟨p1, rfl, p3⟩ | ⟨p1, p3⟩ <;> rcases ry with ⟨q1, rfl, q3⟩ | ⟨q1, q3⟩
      · exact absurd (p1.trans q1.symm) hij
      · refine ⟨{ x with got := x.got ++ [e], due := none }, y, ?_⟩
        rw [gains_more h.atx p3 (by rfl), gains_same h.aty q3 (by rfl), List.append_nil]
        refine { h with atx := p3, aty := q3, kx := h.kx, cx := h.cx, bx := h.bx, one := .inl rfl, all := fun lx ly => ?_ }
        have := h.all lx ly
        rw [hd] at this
        simpa using this
      · refine ⟨x, { y with got := y.got ++ [e], due := none }, ?_⟩
        rw [gains_same h.atx p3 (by rfl), gains_more h.aty q3 (by rfl), List.append_nil]
        have dx : x.due = none := by
          rcases h.one with e | e
          · exact e
          · rw [hd] at e; simp at e
        refine { h with atx := p3, aty := q3, ky := h.ky, cy := h.cy, bY := h.bY, one := .inr rfl, all := fun lx ly => ?_ }
        have := h.all lx ly
        rw [hd, dx] at this
        simpa [dx] using this
      · refine ⟨x, y, ?_⟩
        rw [gains_same h.atx p3 (by rfl), gains_same h.aty q3 (by rfl), List.append_nil, List.append_nil]
        exact { h with atx := p3, aty := q3 }

theorem ClientInv.reads (h : ClientReads C env o s1.subs.length (s1.subs.length + 1) (clientJoins s1 0 0) s l) :
    ∃ x y, ClientInv s1.subs.length (s1.subs.length + 1) s1.begunO.length s l x y := by
  induction h with
  | refl => exact ⟨.fresh .updates 0 s1.begunO.length, .fresh .reorgs 0 s1.begunO.length, by simp [clientJoins], by simp [clientJoins], rfl, rfl, rfl, rfl, rfl, rfl, .inl rfl, Nat.le_refl _, fun _ _ => by simp [SubCh.fresh, clientJoins]⟩
  | step _ h ih => obtain ⟨x, y, ih⟩ := ih; exact ih.step (by omega) h

/-- **C159**, order: a client of updates and reorgs with unbuffered channels has read, across both channels, the first so many of the updates and reorgs sent since it subscribed, in the
order in which they were sent. -/
theorem C159_in_order (hn : FSys.start cfg todo = .ok s0) (hs : FSys.Steps C env o s0 s1)
    (hc : ClientReads C env o s1.subs.length (s1.subs.length + 1) (clientJoins s1 0 0) s l)
    (hx : StillSubscribed s s1.subs.length) (hy : StillSubscribed s (s1.subs.length + 1)) :
    l <+: ((s.sys.omp.log.drop s1.begunO.length).map Ev.o).filter ofChain := by
  obtain ⟨x, y, h⟩ := ClientInv.reads hc
  have hi := start_inv hn (FSteps.trans hs (FSteps.trans (clientJoins_steps 0 0) hc.steps))
  have := h.all (hx x h.atx) (hy y h.aty)
  rw [List.map_drop, ← hi.logO, List.drop_append_of_le_length h.le, List.filter_append, ← this, List.append_assoc, List.append_assoc]
  exact List.prefix_append _ _

/-- **C159**, completeness: when all is done it has read all of them. -/
theorem C159_all (hn : FSys.start cfg todo = .ok s0) (hs : FSys.Steps C env o s0 s1)
    (hc : ClientReads C env o s1.subs.length (s1.subs.length + 1) (clientJoins s1 0 0) s l)
    (hx : StillSubscribed s s1.subs.length) (hy : StillSubscribed s (s1.subs.length + 1)) (hd : s.Settled) :
    l = ((s.sys.omp.log.drop s1.begunO.length).map Ev.o).filter ofChain := by
  obtain ⟨x, y, h⟩ := ClientInv.reads hc
  have hi := start_inv hn (FSteps.trans hs (FSteps.trans (clientJoins_steps 0 0) hc.steps))
  have := h.all (hx x h.atx) (hy y h.aty)
  rw [(hd.2.2.2 x (List.mem_of_getElem? h.atx)).1, (hd.2.2.2 y (List.mem_of_getElem? h.aty)).1] at this
  rw [List.map_drop, ← hi.logO, List.drop_append_of_le_length h.le, hd.2.1]
  simpa using this

theorem replays_ofChain {base : Hash} {l r : List OOut} : ∀ {b : Hash} {c : List PB}, Replays base (l ++ r) b c → Replays base (l ++ r.filter (fun y => ofChain (.o y))) b c := by
  induction r using snoc_induction with
  | nil => intro b c h; exact h
  | snoc r x ih =>
    intro b c h
    rw [← List.append_assoc] at h
    obtain ⟨b1, c1, h1, h2⟩ := replays_snoc h
    have i := ih h1
    rw [List.filter_append]
    cases x with
    | reorg n k => rw [show List.filter _ [OOut.reorg n k] = [OOut.reorg n k] from rfl, ← List.append_assoc]; exact .step i h2
    | update a d => rw [show List.filter _ [OOut.update a d] = [OOut.update a d] from rfl, ← List.append_assoc]; exact .step i h2
    | evictOlder n =>
      rw [show List.filter _ [OOut.evictOlder n] = [] from rfl, List.append_nil]
      cases h2
      exact i

/-- **C159**, whatever arrives: if hashes identify blocks, then at any time such a client, knowing what was sent before it subscribed, can apply what it has read in the order in which it
read it, reorgs included: the result is one linked chain. -/
theorem C159_applies (h0 : cfg.lastHash ≠ Hash.zero) (hi : HashesIdentify C todo) (hn : FSys.start cfg todo = .ok s0) (hs : FSys.Steps C env o s0 s1)
    (hc : ClientReads C env o s1.subs.length (s1.subs.length + 1) (clientJoins s1 0 0) s l)
    (hx : StillSubscribed s s1.subs.length) (hy : StillSubscribed s (s1.subs.length + 1)) :
    ∃ base chain, Replays cfg.lastHash (s.sys.omp.log.take s1.begunO.length ++ updatesRead l) base chain ∧ Linked base chain := by
  have hall := FSteps.trans hs (FSteps.trans (clientJoins_steps 0 0) hc.steps)
  obtain ⟨g1, g2⟩ := C146_goroutines hn hall
  obtain ⟨base, chain, c1, _, _⟩ := C156_chain h0 hi g1 g2
  rw [← List.take_append_drop s1.begunO.length s.sys.omp.log] at c1
  have c2 := replays_ofChain c1
  have hpre : updatesRead l <+: (s.sys.omp.log.drop s1.begunO.length).filter (fun y => ofChain (.o y)) := by
    obtain ⟨t, ht⟩ := C159_in_order hn hs hc hx hy
    refine ⟨updatesRead t, ?_⟩
    unfold updatesRead
    rw [← List.filterMap_append, ht, List.filter_map, List.filterMap_map]
    exact List.filterMap_some
  obtain ⟨t, ht⟩ := hpre
  rw [← ht, ← List.append_assoc] at c2
  obtain ⟨b, c, c3⟩ := replays_front c2
  exact ⟨b, c, c3, (replays_linked c3).1⟩

/-! ## Examples -/

/-- The next step: one of the goroutines; a reorg is handled; or channel `k` accepts a value, is read while empty, or is read. -/
inductive CPick where
  | does (x : FSched) | reorg | put (k : Nat) | meet (k : Nat) | take (k : Nat)

/-- Channel `k` becomes `x`. -/
def FSys.setSub (s : FSys) (k : Nat) (x : SubCh) : FSys := { s with subs := s.subs.take k ++ x :: s.subs.drop (k + 1) }

/-- Performing it. -/
def FSys.cpick1 (C : Codec) (env : Env) (o : MapOrder) (s : FSys) : CPick → Option FSys
  | .does x => s.pick1 C env o (.does x)
  | .reorg => s.pick1 C env o .reorg
  | .put k => match s.subs[k]? with
    | some x => match x.due with
      | some e => if x.buf.length < x.cap then some (s.setSub k { x with buf := x.buf ++ [e], due := none }) else none
      | none => none
    | none => none
  | .meet k => match s.subs[k]? with
    | some x => match x.due, x.buf with
      | some e, [] => some (s.setSub k { x with got := x.got ++ [e], due := none })
      | _, _ => none
    | none => none
  | .take k => match s.subs[k]? with
    | some x => match x.buf with
      | e :: b => some (s.setSub k { x with got := x.got ++ [e], buf := b })
      | [] => none
    | none => none

theorem subs_split {s : FSys} {k : Nat} {x : SubCh} (h : s.subs[k]? = some x) : s.subs = s.subs.take k ++ x :: s.subs.drop (k + 1) := by
  obtain ⟨hk, rfl⟩ := List.getElem?_eq_some_iff.mp h
  rw [← List.drop_eq_getElem_cons hk, List.take_append_drop]

theorem cpick1_step {s s' : FSys} {x : CPick} (h : s.cpick1 C env o x = some s') : FSys.Step C env o s s' := by
  cases x with
  | does x => exact pick1_step (x := .does x) h
  | reorg => exact pick1_step (x := .reorg) h
  | put k =>
    simp only [FSys.cpick1] at h
    split at h
    · rename_i hx
      split at h
      · rename_i hd
        split at h
        · rename_i hr
          simp only [Option.some.injEq] at h; subst h
          exact .work (.put (subs_split hx) hd hr)
        · simp at h
      · simp at h
    · simp at h
  | meet k =>
    simp only [FSys.cpick1] at h
    split at h
    · rename_i hx
      split at h
      · rename_i hd hb
        simp only [Option.some.injEq] at h; subst h
        exact .work (.meet (subs_split hx) hd hb)
      · simp at h
    · simp at h
  | take k =>
    simp only [FSys.cpick1] at h
    split at h
    · rename_i hx
      split at h
      · rename_i hb
        simp only [Option.some.injEq] at h; subst h
        exact .work (.take (subs_split hx) hb)
      · simp at h
    · simp at h

/-- A schedule, with what is read from channels 0 and 1. -/
def FSys.cpick (C : Codec) (env : Env) (o : MapOrder) : FSys → List Ev → List CPick → Option (FSys × List Ev)
  | s, r, [] => some (s, r)
  | s, r, x :: l => (s.cpick1 C env o x).bind fun s' => FSys.cpick C env o s' (r ++ gains s s' 0 ++ gains s s' 1) l

theorem cpick_reads {s s1 : FSys} {r : List Ev} {l : List CPick} {v : FSys × List Ev} (h1 : ClientReads C env o 0 1 s s1 r) (h : FSys.cpick C env o s1 r l = some v) :
    ClientReads C env o 0 1 s v.1 v.2 := by
  induction l generalizing s1 r with
  | nil => cases h; exact h1
  | cons x l ih =>
    simp only [FSys.cpick, Option.bind_eq_some_iff] at h
    obtain ⟨s2, h2, h3⟩ := h
    exact ih (.step h1 (cpick1_step h2)) h3

/-- What was read: hashes and parents of the blocks added, hashes of those removed; of a reorg the hash. -/
def exReadC (l : List Ev) : List (List (Hash × Hash) × List Hash) := l.map fun
  | .o (.update a r) => (a.map (fun b => (b.hash, b.parentHash)), r.map (·.hash))
  | .o (.reorg _ h) => ([], [h])
  | _ => ([], [])

/-- What a client that subscribes first of all has read after a schedule, and whether it is subscribed. -/
def exClientView (calls : List Call) (cap : Nat) (l : List CPick) : Option (List (List (Hash × Hash) × List Hash) × Bool) :=
  match FSys.start exOCfg calls with
  | .error _ => none
  | .ok s0 => if s0.subs.length = 0 then (FSys.cpick Avro.codec exEnv .plain (clientJoins s0 cap cap) [] l).map fun v => (exReadC v.2, v.1.subs.all (·.live)) else none

theorem exClientView_reads {calls : List Call} {cap : Nat} {l : List CPick} {v : List (List (Hash × Hash) × List Hash)} (h : exClientView calls cap l = some (v, true)) :
    ∃ s0 s r, FSys.start exOCfg calls = .ok s0 ∧ ClientReads Avro.codec exEnv .plain s0.subs.length (s0.subs.length + 1) (clientJoins s0 cap cap) s r ∧
      StillSubscribed s s0.subs.length ∧ StillSubscribed s (s0.subs.length + 1) ∧ exReadC r = v := by
  unfold exClientView at h
  split at h
  · cases h
  · rename_i s0 h0
    split at h
    · rename_i hl
      rw [Option.map_eq_some_iff] at h
      obtain ⟨w, h1, h2⟩ := h
      simp only [Prod.mk.injEq, List.all_eq_true] at h2
      refine ⟨s0, w.1, w.2, h0, ?_, fun x hx => h2.2 x (List.mem_of_getElem? hx), fun x hx => h2.2 x (List.mem_of_getElem? hx), h2.1⟩
      rw [hl]
      exact cpick_reads .refl h1
    · cases h

/-- A block goes through both goroutines. -/
def exCBlock : List CPick := [.does .call, .does .beginC, .does .accept, .does .beginC, .does .accept, .does .op, .does .beginO]

/-- A reorg goes through both goroutines. -/
def exCReorg : List CPick := [.does .call, .does .beginC, .does .accept, .reorg, .does .beginO]

/-- The hypotheses of C159 are met by a client that reads an update, a reorg and another update; the calls are those of `C158_needs_reorgs`. -/
example : exOCfg.lastHash ≠ Hash.zero ∧ HashesIdentify Avro.codec exReorgBetween ∧
    ∃ s0 s r, FSys.start exOCfg exReorgBetween = .ok s0 ∧ ClientReads Avro.codec exEnv .plain s0.subs.length (s0.subs.length + 1) (clientJoins s0 0 0) s r ∧
      StillSubscribed s s0.subs.length ∧ StillSubscribed s (s0.subs.length + 1) ∧ exReadC r = [([(exHash 2, exHash 1)], []), ([], [exHash 1]), ([(exHash 3, exHash 1)], [])] :=
  ⟨by decide, exReorgBetween_identify, exClientView_reads (l := exCBlock ++ [.meet 0] ++ exCReorg ++ [.meet 1] ++ exCBlock ++ [.meet 0]) (by decide +kernel)⟩

/-- **C159** needs channels without buffers: with a place in each buffer the client can read a reorg before the update sent before it, and then it cannot apply the next. -/
theorem C159_needs_unbuffered : ∃ (calls : List Call) (s0 s : FSys) (r : List Ev), HashesIdentify Avro.codec calls ∧ FSys.start exOCfg calls = .ok s0 ∧
    ClientReads Avro.codec exEnv .plain s0.subs.length (s0.subs.length + 1) (clientJoins s0 1 1) s r ∧ StillSubscribed s s0.subs.length ∧ StillSubscribed s (s0.subs.length + 1) ∧
    s0.begunO = [] ∧ ¬ ∃ base chain, Replays exOCfg.lastHash (updatesRead r) base chain := by
  obtain ⟨s0, s, r, h1, h2, h3, h4, h6⟩ := exClientView_reads (calls := exReorgBetween) (cap := 1) (v := [([], [exHash 1]), ([(exHash 2, exHash 1)], []), ([(exHash 3, exHash 1)], [])])
    (l := exCBlock ++ [.put 0] ++ exCReorg ++ [.put 1, .take 1, .take 0] ++ exCBlock ++ [.put 0, .take 0]) (by decide +kernel)
  refine ⟨exReorgBetween, s0, s, r, exReorgBetween_identify, h1, h2, h3, h4, ?_, ?_⟩
  · revert h1
    unfold FSys.start
    simp only [bind, Except.bind]
    split
    · intro h; cases h
    · intro h; cases h; rfl
  rintro ⟨base, chain, hr⟩
  have hlen : r.length = 3 := by simpa [exReadC] using congrArg List.length h6
  match r, hlen with
  | [z0, z1, z2], _ =>
    simp only [exReadC, List.map_cons, List.map_nil, List.cons.injEq, and_true] at h6
    obtain ⟨g0, g1, g2⟩ := h6
    cases z1 with
    | c => simp at g1
    | o x1 =>
    cases z2 with
    | c => simp at g2
    | o x2 =>
    cases x1 with
    | reorg => simp at g1
    | evictOlder => simp at g1
    | update a1 r1 =>
    cases x2 with
    | reorg => simp at g2
    | evictOlder => simp at g2
    | update a2 r2 =>
    simp only [Prod.mk.injEq, List.map_eq_nil_iff, List.map_eq_singleton_iff] at g1 g2
    obtain ⟨⟨y1, rfl, k1, _⟩, rfl⟩ := g1
    obtain ⟨⟨y2, rfl, _, k2⟩, rfl⟩ := g2
    cases z0 with
    | c => simp at g0
    | o x0 =>
    obtain ⟨b1, c1, hr1, f2⟩ := replays_snoc (l := [x0, .update [y1] []]) hr
    obtain ⟨b0, c0, hr0, f1⟩ := replays_snoc (l := [x0]) hr1
    obtain ⟨bb, cc, _, f0⟩ := replays_snoc (l := []) hr0
    have e0 : c0 = [] := by
      cases x0 with
      | evictOlder => simp at g0
      | reorg => cases f0; rfl
      | update a0 r0 =>
        simp only [Prod.mk.injEq, List.map_eq_nil_iff] at g0
        cases f0 with
        | within _ h _ => exact absurd g0.1 h
        | beyond _ h _ _ _ => exact absurd g0.1 h
    have e1 : c1 = [y1] := by
      subst e0
      generalize ek : ([] : List PB) = k at f1
      generalize er : ([] : List PB) = r at f1
      cases f1 with
      | within h _ _ =>
        obtain ⟨rfl, rfl⟩ := List.append_eq_nil_iff.mp ek.symm
        rfl
      | beyond => rfl
    subst e1
    generalize ec : [y1] = c at f2
    generalize er : ([] : List PB) = r at f2
    cases f2 with
    | within h _ hk =>
      subst er
      obtain rfl : _ = [] := by simpa [hashes] using h
      rw [List.append_nil] at ec
      subst ec
      have := hk.1
      simp only [endOf] at this
      rw [k1, k2] at this
      revert this; decide
    | beyond h _ _ _ _ =>
      obtain ⟨rfl, rfl⟩ := List.append_eq_nil_iff.mp er.symm
      subst ec
      simp [hashes] at h

end Verif
