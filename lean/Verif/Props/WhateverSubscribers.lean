import Verif.Props.Whatever
import Verif.Props.Subscribers
/-! C158: whatever arrives, every subscriber can at any time apply what it has read. -/
namespace Verif
open Spec

variable {C : Codec} {env : Env} {o : MapOrder} {cfg : Config} {todo : List Call} {s0 s : FSys}

/-- **C158**, content: whatever arrives, whatever the subscribers do, everything a subscriber has read was received. In updates and among the blocks it gets there are only received blocks,
none of them in an update is forbidden by the whitelist, and it is notified of received reorgs only. -/
theorem C158_received (hn : FSys.start cfg todo = .ok s0) (hs : FSys.Steps C env o s0 s) {x : SubCh} (hx : x ∈ s.subs) :
    (∀ added removed, .o (.update added removed) ∈ x.got → ∀ b ∈ added ++ removed, Received C s.sys.calls cfg.tracked b ∧ ¬ Forbidden cfg.whitelist b) ∧
    (∀ n h, .o (.reorg n h) ∈ x.got → ReorgCame C s.sys.calls n h) ∧
    (∀ b, .c (.batch b) ∈ x.got → Received C s.sys.calls cfg.tracked b) := by
  obtain ⟨g1, g2⟩ := C146_goroutines hn hs
  have hin : ∀ e ∈ x.got, e ∈ sendsFor s.sys x.kind := fun e he =>
    (List.drop_subset _ _) (List.mem_filter.mp ((C146_in_order hn hs hx).subset he)).1
  have ho : ∀ y, .o y ∈ x.got → y ∈ s.sys.omp.log := by
    intro y hy
    have := hin _ hy
    cases hk : x.kind <;> rw [hk] at this <;> simp [sendsFor] at this <;> exact this
  have hc : ∀ y, .c y ∈ x.got → y ∈ s.sys.mp.log := by
    intro y hy
    have := hin _ hy
    cases hk : x.kind <;> rw [hk] at this <;> simp [sendsFor] at this <;> exact this
  obtain ⟨r1, r2⟩ := C156_received g1 g2
  refine ⟨fun a r hu => r1 a r (ho _ hu), fun n h hu => r2 n h (ho _ hu), fun b hb => ?_⟩
  obtain ⟨hp, _, _⟩ := C43_pipeline g1 g2
  obtain ⟨mp0, hm, hr⟩ := hp.mp
  exact calls_received hm hr b (List.mem_filterMap.mpr ⟨_, hc _ hb, rfl⟩)

theorem replays_front {base : Hash} {l r : List OOut} : ∀ {b : Hash} {c : List PB}, Replays base (l ++ r) b c → ∃ b' c', Replays base l b' c' := by
  induction r using snoc_induction with
  | nil => intro b c h; exact ⟨b, c, by simpa using h⟩
  | snoc r x ih =>
    intro b c h
    rw [← List.append_assoc] at h
    obtain ⟨b1, c1, h1, _⟩ := replays_snoc h
    exact ih h1

/-- Requests to evict are nothing to a subscriber. -/
theorem replays_updates {base : Hash} {l r : List OOut} (hr : ∀ n h, OOut.reorg n h ∉ r) : ∀ {b : Hash} {c : List PB}, Replays base (l ++ r) b c →
    Replays base (l ++ r.filter (fun y => meant .updates (.o y))) b c := by
  induction r using snoc_induction with
  | nil => intro b c h; exact h
  | snoc r x ih =>
    intro b c h
    rw [← List.append_assoc] at h
    obtain ⟨b1, c1, h1, h2⟩ := replays_snoc h
    have i := ih (fun n k hk => hr n k (by simp [hk])) h1
    rw [List.filter_append]
    cases x with
    | reorg n k => exact absurd (by simp) (hr n k)
    | update a d => rw [show List.filter _ [OOut.update a d] = [OOut.update a d] from rfl, ← List.append_assoc]; exact .step i h2
    | evictOlder n =>
      rw [show List.filter _ [OOut.evictOlder n] = [] from rfl, List.append_nil]
      cases h2
      exact i

/-- **C158**, order: if hashes identify blocks and no reorgs are sent, then whatever else arrives, at any time, a subscriber to updates that knows what was sent before it subscribed can
apply what it has read: the result is one linked chain. -/
theorem C158_applies (h0 : cfg.lastHash ≠ Hash.zero) (hi : HashesIdentify C todo) (hr : ∀ m, .msg m ∈ todo → m.key.head? ≠ some ReorgType) (hn : FSys.start cfg todo = .ok s0)
    (hs : FSys.Steps C env o s0 s) {x : SubCh} (hx : x ∈ s.subs) (hk : x.kind = .updates) :
    ∃ base chain, Replays cfg.lastHash (s.sys.omp.log.take x.joined ++ updatesRead x.got) base chain ∧ Linked base chain := by
  obtain ⟨g1, g2⟩ := C146_goroutines hn hs
  obtain ⟨base, chain, c1, _, _⟩ := C156_chain h0 hi g1 g2
  obtain ⟨hp, _, _⟩ := C43_pipeline g1 g2
  have hno : ∀ n h, OOut.reorg n h ∉ s.sys.omp.log.drop x.joined := by
    intro n h hm
    obtain ⟨m, hm', _⟩ := (C156_received g1 g2).2 n h (List.drop_subset _ _ hm)
    exact hr m (by rw [hp.calls]; simp [hm'.mem]) hm'.type
  rw [← List.take_append_drop x.joined s.sys.omp.log] at c1
  have c2 := replays_updates hno c1
  have hpre : updatesRead x.got <+: (s.sys.omp.log.drop x.joined).filter (fun y => meant .updates (.o y)) := by
    obtain ⟨t, ht⟩ := C146_in_order hn hs hx
    refine ⟨updatesRead t, ?_⟩
    unfold updatesRead
    rw [← List.filterMap_append, ht, addressed, hk]
    show List.filterMap _ (((s.sys.omp.log.map Ev.o).drop x.joined).filter _) = _
    rw [← List.map_drop, List.filter_map, List.filterMap_map]
    exact List.filterMap_some
  obtain ⟨t, ht⟩ := hpre
  rw [← ht, ← List.append_assoc] at c2
  obtain ⟨b, c, c3⟩ := replays_front c2
  exact ⟨b, c, c3, (replays_linked c3).1⟩

/-! ## Examples -/

/-- The next step: one of the goroutines, the only subscriber reads, or a reorg is handled. -/
inductive FPick where
  | does (x : FSched) | read | reorg

/-- Performing it. -/
def FSys.pick1 (C : Codec) (env : Env) (o : MapOrder) (s : FSys) : FPick → Option FSys
  | .does x => s.exec1 C env o x
  | .read => match s.subs with
    | [x] => match x.due, x.buf with
      | some e, [] => some { s with subs := [{ x with got := x.got ++ [e], due := none }] }
      | _, _ => none
    | _ => none
  | .reorg => if s.opq.isEmpty && s.free false then
      (s.sys.exec1 C env o .reorg).map fun y => { s with sys := y, opq := y.omp.log.drop s.sys.omp.log.length } else none

theorem pick1_step {s s' : FSys} {x : FPick} (h : s.pick1 C env o x = some s') : FSys.Step C env o s s' := by
  cases x with
  | does x => exact fexec1_step h
  | read =>
    simp only [FSys.pick1] at h
    split at h
    · rename_i hx
      split at h
      · rename_i hd hb
        simp only [Option.some.injEq] at h; subst h
        exact .work (.meet (l := []) (r := []) hx hd hb)
      · simp at h
    · simp at h
  | reorg =>
    simp only [FSys.pick1] at h
    split at h
    · rename_i hc
      simp only [Bool.and_eq_true, List.isEmpty_iff] at hc
      rw [Option.map_eq_some_iff] at h
      obtain ⟨y, h1, rfl⟩ := h
      refine .work (.op (exec1_step h1) ?_ hc.1 (FSys.free_iff hc.2))
      unfold Sys.exec1 at h1
      simp only [] at h1
      split at h1
      · split at h1
        · simp only [Option.some.injEq] at h1; subst h1; simp
        · simp at h1
      · simp at h1
    · simp at h

/-- A schedule. -/
def FSys.pick (C : Codec) (env : Env) (o : MapOrder) : FSys → List FPick → Option FSys
  | s, [] => some s
  | s, x :: l => (s.pick1 C env o x).bind fun s' => FSys.pick C env o s' l

theorem pick_steps {s s1 s' : FSys} {l : List FPick} (h1 : FSys.Steps C env o s s1) (h : FSys.pick C env o s1 l = some s') : FSys.Steps C env o s s' := by
  induction l generalizing s1 with
  | nil => cases h; exact h1
  | cons x l ih =>
    simp only [FSys.pick, Option.bind_eq_some_iff] at h
    obtain ⟨s2, h2, h3⟩ := h
    exact ih (.step h1 (pick1_step h2)) h3

/-- What a subscriber has read: hashes and parents of the blocks added, hashes of those removed. -/
def exRead (l : List OOut) : List (List (Hash × Hash) × List Hash) := l.map fun
  | .update a r => (a.map (fun b => (b.hash, b.parentHash)), r.map (·.hash))
  | _ => ([], [])

/-- What the subscribers have read after a schedule. -/
def exSubsView (calls : List Call) (l : List FPick) : Option (List (List (List (Hash × Hash) × List Hash))) :=
  match FSys.start exOCfg calls with
  | .error _ => none
  | .ok s0 => (FSys.pick Avro.codec exEnv .plain s0 l).map fun s => s.subs.filterMap fun x => if x.kind = .updates ∧ x.joined = 0 then some (exRead (updatesRead x.got)) else none

theorem exSubsView_steps {calls : List Call} {l : List FPick} {v : List (List (Hash × Hash) × List Hash)} (h : exSubsView calls l = some [v]) :
    ∃ s0 s x, FSys.start exOCfg calls = .ok s0 ∧ FSys.Steps Avro.codec exEnv .plain s0 s ∧ x ∈ s.subs ∧ x.kind = .updates ∧ x.joined = 0 ∧ exRead (updatesRead x.got) = v := by
  unfold exSubsView at h
  split at h
  · cases h
  · rename_i s0 h0
    rw [Option.map_eq_some_iff] at h
    obtain ⟨s, h1, h2⟩ := h
    have : v ∈ s.subs.filterMap fun x => if x.kind = .updates ∧ x.joined = 0 then some (exRead (updatesRead x.got)) else none := by rw [h2]; simp
    obtain ⟨x, hx, e⟩ := List.mem_filterMap.mp this
    split at e
    · rename_i hc; cases e; exact ⟨s0, s, x, h0, pick_steps .refl h1, hx, hc.1, hc.2, rfl⟩
    · cases e

/-- The calls of `exWhatever` without the reorg. -/
def exNoReorg : List Call := exWhatever.dropLast

/-- A block goes through both goroutines; `n` updates are read. -/
def exPickBlock (n : Nat) : List FPick :=
  [.does .call, .does .beginC, .does .accept, .does .beginC, .does .accept, .does .op] ++ (List.replicate n [FPick.does .beginO, .read]).flatten

/-- The hypotheses of `C158_applies` are met by a subscriber that has read an update and one that replaces its blocks. -/
example : exOCfg.lastHash ≠ Hash.zero ∧ HashesIdentify Avro.codec exNoReorg ∧ (∀ m, .msg m ∈ exNoReorg → m.key.head? ≠ some ReorgType) ∧
    ∃ s0 s x, FSys.start exOCfg exNoReorg = .ok s0 ∧ FSys.Steps Avro.codec exEnv .plain s0 s ∧ x ∈ s.subs ∧ x.kind = .updates ∧ x.joined = 0 ∧
      exRead (updatesRead x.got) = [([(exHash 2, exHash 1), (exHash 3, exHash 2)], []), ([(exHash 4, exHash 1), (exHash 5, exHash 4)], [exHash 2, exHash 3])] := by
  refine ⟨by decide, ?_, ?_, exSubsView_steps (calls := exNoReorg) (l := [.does (.subscribe .updates 0), .does .call, .does .call] ++ exPickBlock 0 ++ exPickBlock 0 ++ exPickBlock 1 ++
    exPickBlock 0 ++ exPickBlock 0 ++ exPickBlock 1) (by decide +kernel)⟩
  · have hs : ∀ c ∈ exNoReorg, c ∈ exWhatever := fun c hc => List.dropLast_subset _ hc
    exact ⟨fun k p n w p' n' w' x y => exWhatever_identify.one k p n w p' n' w' (x.mono hs) (y.mono hs), fun k p n w x => exWhatever_identify.nonzero k p n w (x.mono hs)⟩
  · intro m hm
    have hm : Call.msg m ∈ [Call.msg ⟨BatchMsgType :: (exHash 7).bytes ++ str "state/x", [1], 0, str "t:0"⟩, .msg ⟨77 :: (exHash 8).bytes, [], 1, str "t:0"⟩] ++ exTree.map Call.block := hm
    simp only [List.mem_append, List.mem_cons, Call.msg.injEq, List.not_mem_nil, or_false, List.mem_map, reduceCtorEq, and_false, exists_false] at hm
    rcases hm with rfl | rfl <;> decide

/-! ## Reorgs -/

/-- Block 2 on block 1, a reorg to block 1, block 3 on block 1. -/
def exReorgBetween : List Call := [.block (ob 2 1 11 20), .msg ⟨ReorgType :: (exHash 1).bytes, Avro.codec.encInt 10, 0, str "t:0"⟩, .block (ob 3 1 11 20)]

theorem exReorgBetween_identify : HashesIdentify Avro.codec exReorgBetween := by
  have hW : ∀ h p n w, Described Avro.codec exReorgBetween h p n w → p = exHash 1 ∧ n = 11 ∧ w = 20 ∧ h ≠ Hash.zero := by
    intro h p n w hd
    cases hd with
    | header m b hm _ _ _ _ =>
      exfalso
      have := hm.mem
      simp only [exReorgBetween, List.mem_cons, List.not_mem_nil, or_false, Call.msg.injEq, reduceCtorEq, false_or] at this
      have ht := hm.type
      subst this; revert ht; decide
    | block pb hm hh hp hn hw =>
      have hb : pb = ob 2 1 11 20 ∨ pb = ob 3 1 11 20 := by simpa [exReorgBetween] using hm
      subst hh hp hn hw
      rcases hb with rfl | rfl <;> decide
  constructor
  · intro h p n w p' n' w' hx hy
    obtain ⟨a, b, c, _⟩ := hW _ _ _ _ hx
    obtain ⟨a', b', c', _⟩ := hW _ _ _ _ hy
    exact ⟨a.trans a'.symm, b.trans b'.symm, c.trans c'.symm⟩
  · intro h p n w hx
    exact (hW _ _ _ _ hx).2.2.2

/-- **C158** needs that no reorgs are sent, or that the subscriber also hears of them: the update after a reorg does not say which blocks the reorg took back. -/
theorem C158_needs_reorgs : ∃ (calls : List Call) (s0 s : FSys) (x : SubCh), FSys.start exOCfg calls = .ok s0 ∧ FSys.Steps Avro.codec exEnv .plain s0 s ∧ x ∈ s.subs ∧
    x.kind = .updates ∧ x.joined = 0 ∧ HashesIdentify Avro.codec calls ∧ ¬ ∃ base chain, Replays exOCfg.lastHash (updatesRead x.got) base chain := by
  obtain ⟨s0, s, x, h1, h2, h3, h4, h5, h6⟩ := exSubsView_steps (calls := exReorgBetween) (v := [([(exHash 2, exHash 1)], []), ([(exHash 3, exHash 1)], [])])
    (l := [.does (.subscribe .updates 0)] ++ exPickBlock 1 ++ [.does .call, .does .beginC, .does .accept, .reorg, .does .beginO] ++ exPickBlock 1) (by decide +kernel)
  refine ⟨exReorgBetween, s0, s, x, h1, h2, h3, h4, h5, exReorgBetween_identify, ?_⟩
  rintro ⟨base, chain, hr⟩
  generalize updatesRead x.got = l at h6 hr
  have hlen : l.length = 2 := by simpa [exRead] using congrArg List.length h6
  match l, hlen with
  | [x1, x2], _ =>
    simp only [exRead, List.map_cons, List.map_nil, List.cons.injEq, and_true] at h6
    cases x1 with
    | reorg => simp at h6
    | evictOlder => simp at h6
    | update a1 r1 =>
    cases x2 with
    | reorg => simp at h6
    | evictOlder => simp at h6
    | update a2 r2 =>
    simp only [Prod.mk.injEq, List.map_eq_nil_iff, List.map_eq_singleton_iff] at h6
    obtain ⟨⟨⟨y1, rfl, g1, _⟩, rfl⟩, ⟨y2, rfl, _, g2⟩, rfl⟩ := h6
    obtain ⟨b1, c1, hr1, f2⟩ := replays_snoc (l := [.update [y1] []]) hr
    obtain ⟨b0, c0, hr0, f1⟩ := replays_snoc (l := []) hr1
    have e0 : c0 = [] := by
      generalize e : ([] : List OOut) = m at hr0
      cases hr0 with
      | start => rfl
      | step => simp at e
    have e1 : c1 = [y1] := by
      subst e0
      generalize ek : ([] : List PB) = k at f1
      generalize er : ([] : List PB) = r at f1
      cases f1 with
      | within h _ _ =>
        obtain ⟨rfl, rfl⟩ := List.append_eq_nil_iff.mp ek.symm
        rfl
      | beyond => rfl
    subst e1
    generalize ec : [y1] = c at f2
    generalize er : ([] : List PB) = r at f2
    cases f2 with
    | within h _ hk =>
      subst er
      obtain rfl : _ = [] := by simpa [hashes] using h
      rw [List.append_nil] at ec
      subst ec
      have := hk.1
      simp only [endOf] at this
      rw [g1, g2] at this
      revert this; decide
    | beyond h _ _ _ _ =>
      obtain ⟨rfl, rfl⟩ := List.append_eq_nil_iff.mp er.symm
      subst ec
      simp [hashes] at h

end Verif
