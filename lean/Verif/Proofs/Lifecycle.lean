import Verif.Model.Lifecycle
import Verif.Props.Warmup
/-!
# Invariants of the running Kafka consumer
-/
namespace Verif

/-- The message in hand. -/
def LPhase.held : LPhase → List RMsg
  | .warming m => [m]
  | .sending m => [m]
  | _ => []

/-- The message in hand that has been looked at. -/
def LPhase.looked : LPhase → List RMsg
  | .sending m => [m]
  | _ => []

/-- All that was ever put on `messages`. -/
def LSys.out (s : LSys) : List (Nat × RMsg) := s.handled ++ s.chan

/-- What holds of a partition goroutine. `early`: nobody has closed the consumer; `fin`: `kc.ready` is nil. -/
structure LPInv (start : Int) (hw : RMsg → Int) (msgs : List RMsg) (early fin : Bool) (p : LPart) (fw : List RMsg) : Prop where
  start_eq : p.start = start
  sub : (fw ++ p.phase.held ++ p.todo).Sublist msgs
  whole : early = true → fw ++ p.phase.held ++ p.todo = msgs ∧ p.live = true
  ended : p.phase = .ended → p.live = false ∧ p.todo = []
  cold : p.arrived = false → ∀ m ∈ fw ++ p.phase.held, m.offset < start
  doneW : p.done = true → ∃ m ∈ fw ++ p.phase.looked, hw m - m.offset ≤ 1
  doneM : fin = false → ∀ m ∈ fw ++ p.phase.looked, hw m - m.offset ≤ 1 → p.done = true

theorem LPInv.mono {start : Int} {hw : RMsg → Int} {msgs fw : List RMsg} {e e' f f' : Bool} {p : LPart} (h : LPInv start hw msgs e f p fw)
    (he : e' = true → e = true) (hf : f' = false → f = false) : LPInv start hw msgs e' f' p fw :=
  ⟨h.start_eq, h.sub, fun x => h.whole (he x), h.ended, h.cold, h.doneW, fun x => h.doneM (hf x)⟩

/-- What holds of the running consumer. -/
structure LInv (hwm : Nat → RMsg → Int) (n : Nat) (start : Nat → Int) (msgs : Nat → List RMsg) (s : LSys) : Prop where
  n_eq : s.n = n
  parts : ∀ i, LPInv (start i) (hwm i) (msgs i) (s.closers.isEmpty) (s.rdy = .finished) (s.part i) (forwarded s.out i)
  outer : ∀ i, n ≤ i → forwarded s.out i = []
  caught : s.rdy ≠ .parts → ∀ i, i < n → (s.part i).done = true
  shut : s.chanOpen = false → s.closers ≠ []
  runs : s.dispatching = false → s.chanOpen = false
  free : (∃ k : Nat, s.readers[k]? = some .released) → s.rdy = .sent ∨ s.rdy = .finished
  freed : s.rdy = .sent ∨ s.rdy = .finished → ∃ k : Nat, s.readers[k]? = some .released

variable {hwm : Nat → RMsg → Int} {isReorg : Bool} {topic : GoStr} {n : Nat} {start : Nat → Int} {msgs : Nat → List RMsg} {nr nc : Nat}

theorem linv_init : LInv hwm n start msgs (.init n start msgs nr nc) := by
  refine ⟨rfl, ?_, ?_, ?_, ?_, ?_, ?_, ?_⟩
  · intro i
    refine ⟨rfl, ?_, ?_, ?_, ?_, ?_, ?_⟩ <;> simp [LSys.init, LSys.out, forwarded, LPhase.held, LPhase.looked]
  · simp [LSys.init, LSys.out, forwarded]
  · simp [LSys.init]
  · simp [LSys.init]
  · simp [LSys.init]
  · rintro ⟨k, hk⟩
    simp only [LSys.init, List.getElem?_replicate] at hk
    split at hk <;> simp at hk
  · simp [LSys.init]

theorem released_set {l : List ReaderPhase} {k : Nat} {x : ReaderPhase} (hk : ∃ j : Nat, (l.set k x)[j]? = some .released)
    (hx : x ≠ .released) : ∃ j : Nat, l[j]? = some .released := by
  obtain ⟨j, hj⟩ := hk
  rw [List.getElem?_set] at hj
  split at hj
  · split at hj
    · simp at hj; exact absurd hj hx
    · simp at hj
  · exact ⟨j, hj⟩

theorem set_released {l : List ReaderPhase} {k : Nat} {x y : ReaderPhase} (hk : l[k]? = some y) (hy : y ≠ .released)
    (h : ∃ j : Nat, l[j]? = some .released) : ∃ j : Nat, (l.set k x)[j]? = some .released := by
  obtain ⟨j, hj⟩ := h
  refine ⟨j, ?_⟩
  rw [List.getElem?_set]
  split
  · rename_i e; subst e; rw [hk] at hj; simp at hj; exact absurd hj hy
  · exact hj

theorem set_new {l : List ReaderPhase} {k : Nat} {x y : ReaderPhase} (hk : l[k]? = some y) : (l.set k x)[k]? = some x := by
  rw [List.getElem?_set]
  have := (List.getElem?_eq_some_iff.mp hk).1
  simp [this]

/-- Partition goroutines: a step keeps the invariant when it does for the goroutine that moves. -/
theorem LInv.upd {s : LSys} (h : LInv hwm n start msgs s) {i : Nat} {p : LPart} {c : List (Nat × RMsg)} (hi : i < n)
    (hp : LPInv (start i) (hwm i) (msgs i) (s.closers.isEmpty) (s.rdy = .finished) p (forwarded (s.handled ++ c) i))
    (hd : (s.part i).done = true → p.done = true) (hc : ∀ j, j ≠ i → forwarded (s.handled ++ c) j = forwarded s.out j) :
    LInv hwm n start msgs { s.upd i p with chan := c } := by
  refine ⟨h.n_eq, ?_, ?_, ?_, h.shut, h.runs, h.free, h.freed⟩
  · intro j
    by_cases hj : j = i
    · subst hj
      have e : ({ s.upd j p with chan := c } : LSys).part j = p := by simp [LSys.upd]
      rw [e]; exact hp
    · have := h.parts j
      simp only [LSys.upd, hj, if_false, LSys.out]
      rw [hc j hj]; exact this
  · intro j hj
    show forwarded (s.handled ++ c) j = []
    rw [hc j (by omega)]; exact h.outer j hj
  · intro hr j hj
    by_cases e : j = i
    · subst e; simpa [LSys.upd] using hd (h.caught hr _ hj)
    · simpa [LSys.upd, e] using h.caught hr j hj

theorem LPart.look_mono {p : LPart} {s : LSys} {x : Int} {m : RMsg} (h : p.done = true) : p.look s x m = true := by simp [LPart.look, h]

/-- Looking at the message. -/
theorem LPInv.looked {st : Int} {hw : RMsg → Int} {ms fw todo' : List RMsg} {e : Bool} {p : LPart} {s : LSys} {m : RMsg} {w : Bool}
    (h : LPInv st hw ms e (s.rdy = .finished) p fw) (hall : fw ++ p.phase.held ++ p.todo = fw ++ [m] ++ todo') (hl : p.phase.looked = [])
    (hc : w = true ∨ p.warm = false ∧ m.offset < p.start ∧ p.phase = .reading) (hw' : p.warm = true → w = true) :
    LPInv st hw ms e (s.rdy = .finished) { p with todo := todo', phase := .sending m, warm := w, done := p.look s (hw m) m } fw := by
  refine ⟨h.start_eq, ?_, ?_, ?_, ?_, ?_, ?_⟩
  · show (fw ++ [m] ++ todo').Sublist ms
    rw [← hall]; exact h.sub
  · intro he
    show fw ++ [m] ++ todo' = ms ∧ _
    rw [← hall]; exact h.whole he
  · intro x; simp at x
  · intro ha x hx
    rcases hc with rfl | ⟨c1, c2, c3⟩
    · simp [LPart.arrived] at ha
    · rcases List.mem_append.mp hx with hx | hx
      · exact h.cold (by simp [LPart.arrived, c1, c3]) x (List.mem_append_left _ hx)
      · simp only [LPhase.held, List.mem_singleton] at hx
        subst hx; rw [← h.start_eq]; exact c2
  · intro hd
    by_cases h0 : p.done = true
    · obtain ⟨x, h1, h2⟩ := h.doneW h0
      rw [hl, List.append_nil] at h1
      exact ⟨x, List.mem_append_left _ h1, h2⟩
    · have hd' : p.look s (hw m) m = true := hd
      simp only [LPart.look, Bool.or_eq_true, h0, Bool.and_eq_true, decide_eq_true_eq] at hd'
      rcases hd' with hd' | hd'
      · cases hd'
      · exact ⟨m, by simp [LPhase.looked], hd'.2⟩
  · intro hf x hx hx1
    show p.look s (hw m) m = true
    rcases List.mem_append.mp hx with hx | hx
    · exact LPart.look_mono (h.doneM hf x (List.mem_append_left _ hx) hx1)
    · simp only [LPhase.looked, List.mem_singleton] at hx
      subst hx
      simp only [LPart.look, Bool.or_eq_true, Bool.and_eq_true, decide_eq_true_eq]
      refine .inr ⟨by simpa using hf, hx1⟩

theorem linv_step {s t : LSys} (h : LInv hwm n start msgs s) (hst : LSys.Step hwm isReorg topic s t) : LInv hwm n start msgs t := by
  have same : ∀ {u : LSys}, u.n = s.n → u.part = s.part → u.out = s.out → u.closers = s.closers → u.chanOpen = s.chanOpen →
      (u.dispatching = s.dispatching ∨ s.chanOpen = false) → 
      (u.rdy = .finished ↔ s.rdy = .finished) → (u.rdy ≠ .parts → ∀ i, i < n → (s.part i).done = true) →
      ((∃ k : Nat, u.readers[k]? = some .released) ↔ u.rdy = .sent ∨ u.rdy = .finished) → LInv hwm n start msgs u := by
    intro u e1 e2 e3 e4 e5 e6 e7 e8 e9
    refine ⟨e1.trans h.n_eq, ?_, ?_, ?_, ?_, ?_, e9.1, e9.2⟩
    · intro i; rw [e2, e3, e4]; exact (h.parts i).mono id (by simp [e7])
    · rw [e3]; exact h.outer
    · rw [e2]; exact e8
    · rw [e4, e5]; exact h.shut
    · rw [e5]; rcases e6 with e6 | e6
      · rw [e6]; exact h.runs
      · exact fun _ => e6
  cases hst with
  | @begin i hi hp =>
    have this : LPInv (start i) (hwm i) (msgs i) (s.closers.isEmpty) (s.rdy = .finished) (s.part i) (forwarded (s.handled ++ s.chan) i) := h.parts i
    refine h.upd (c := s.chan) (h.n_eq ▸ hi) ⟨this.start_eq, ?_, ?_, ?_, ?_, ?_, ?_⟩ id (fun _ _ => rfl)
    · simpa [hp, LPhase.held] using this.sub
    · simpa [hp, LPhase.held] using this.whole
    · intro x; simp at x
    · simpa [hp, LPhase.held, LPart.arrived] using this.cold
    · simpa [hp, LPhase.looked] using this.doneW
    · simpa [hp, LPhase.looked] using this.doneM
  | @receive i m ms hi hp ht =>
    have this : LPInv (start i) (hwm i) (msgs i) (s.closers.isEmpty) (s.rdy = .finished) (s.part i) (forwarded (s.handled ++ s.chan) i) := h.parts i
    refine h.upd (c := s.chan) (h.n_eq ▸ hi) ?_ ?_ (fun _ _ => rfl)
    · unfold LPart.receive
      split
      · rename_i hc
        refine ⟨this.start_eq, ?_, ?_, ?_, ?_, ?_, ?_⟩
        · simpa [hp, ht, LPhase.held] using this.sub
        · simpa [hp, ht, LPhase.held] using this.whole
        · intro x; simp at x
        · simp [LPart.arrived]
        · simpa [hp, LPhase.looked] using this.doneW
        · simpa [hp, LPhase.looked] using this.doneM
      · rename_i hc
        refine this.looked (by simp [hp, ht, LPhase.held]) (by simp [hp, LPhase.looked]) ?_ id
        cases hw : (s.part i).warm with
        | true => exact .inl rfl
        | false => exact .inr ⟨rfl, by simpa [hw] using hc, hp⟩
    · unfold LPart.receive
      split
      · exact id
      · exact fun hd => LPart.look_mono hd
  | @warmed i m hi hp hall =>
    have this : LPInv (start i) (hwm i) (msgs i) (s.closers.isEmpty) (s.rdy = .finished) (s.part i) (forwarded (s.handled ++ s.chan) i) := h.parts i
    exact h.upd (c := s.chan) (h.n_eq ▸ hi) (this.looked (todo' := (s.part i).todo) (by simp [hp, LPhase.held]) (by simp [hp, LPhase.looked])
      (.inl rfl) (fun _ => rfl)) (fun hd => LPart.look_mono hd) (fun _ _ => rfl)
  | @send i m hi hp ho hl =>
    have := h.parts i
    have e : ∀ j, forwarded (s.handled ++ (s.chan ++ [(i, m)])) j = forwarded s.out j ++ if i = j then [m] else [] := by
      intro j; rw [← List.append_assoc]; exact forwarded_snoc _ _ _ _
    refine h.upd (p := { s.part i with phase := .reading }) (h.n_eq ▸ hi) ?_ id
      (fun j hj => by rw [e]; simp [Ne.symm hj])
    rw [e]
    simp only [if_true]
    refine ⟨this.start_eq, ?_, ?_, ?_, ?_, ?_, ?_⟩
    · simpa [hp, LPhase.held] using this.sub
    · simpa [hp, LPhase.held] using this.whole
    · intro x; simp at x
    · intro ha; have := this.cold (by simpa [hp, LPart.arrived] using ha); simpa [hp, LPhase.held] using this
    · simpa [hp, LPhase.looked] using this.doneW
    · simpa [hp, LPhase.looked] using this.doneM
  | @finish i hi hp ht hl =>
    have this : LPInv (start i) (hwm i) (msgs i) (s.closers.isEmpty) (s.rdy = .finished) (s.part i) (forwarded (s.handled ++ s.chan) i) := h.parts i
    refine h.upd (c := s.chan) (h.n_eq ▸ hi) ⟨this.start_eq, ?_, ?_, ?_, ?_, ?_, ?_⟩ id (fun _ _ => rfl)
    · simpa [hp, LPhase.held] using this.sub
    · simpa [hp, LPhase.held] using this.whole
    · exact fun _ => ⟨hl, ht⟩
    · simpa [hp, LPhase.held, LPart.arrived] using this.cold
    · simpa [hp, LPhase.looked] using this.doneW
    · simpa [hp, LPhase.looked] using this.doneM
  | caughtUp hr hd =>
    refine same rfl rfl rfl rfl rfl (.inl rfl) (by simp [hr]) (fun _ => h.n_eq ▸ hd) ⟨fun hk => ?_, by simp⟩
    have := h.free hk; simp [hr] at this
  | tick hr hd =>
    refine same rfl rfl rfl rfl rfl (.inl rfl) (by simp [hr]) (fun _ => h.caught (by simp [hr])) ⟨fun hk => ?_, by simp⟩
    have := h.free hk; simp [hr] at this
  | reorgsDone hr hd =>
    refine same rfl rfl rfl rfl rfl (.inl rfl) (by simp [hr]) (fun _ => h.caught (by simp [hr])) ⟨fun hk => ?_, by simp⟩
    have := h.free hk; simp [hr] at this
  | @ready k hr hk =>
    exact same rfl rfl rfl rfl rfl (.inl rfl) (by simp [hr]) (fun _ => h.caught (by simp [hr])) ⟨fun _ => .inl rfl, fun _ => ⟨k, set_new hk⟩⟩
  | forget hr =>
    refine ⟨h.n_eq, fun i => (h.parts i).mono id (by simp), h.outer, fun _ => h.caught (by simp [hr]), h.shut, h.runs, fun _ => .inr rfl,
      fun _ => h.freed (.inl hr)⟩
  | @ask k hk =>
    refine same rfl rfl rfl rfl rfl (.inl rfl) Iff.rfl h.caught ⟨fun hx => ?_, fun hx => ?_⟩
    · by_cases hr : s.rdy = .finished
      · exact .inr hr
      · exact h.free (released_set hx (by simp [hr]))
    · exact set_released hk (by simp) (h.freed hx)
  | @take i m rest a wg hd hc hk ha =>
    exact same rfl rfl (by simp [LSys.out, hc]) rfl rfl (.inl rfl) Iff.rfl h.caught ⟨h.free, h.freed⟩
  | quit hd hk =>
    exact ⟨h.n_eq, fun i => (h.parts i).mono (by simp) id, h.outer, h.caught, fun _ => by simp, h.runs, h.free, h.freed⟩
  | @closePart k i ms hk hi hs =>
    have this : LPInv (start i) (hwm i) (msgs i) (s.closers.isEmpty) (s.rdy = .finished) (s.part i) (forwarded (s.handled ++ s.chan) i) := h.parts i
    have hne : s.closers ≠ [] := by rintro e; rw [e] at hk; simp at hk
    have hne' : (s.closers.set k (.closing (i + 1))) ≠ [] := by simpa using hne
    have h1 := h.upd (c := s.chan) (p := { s.part i with todo := ms, live := false }) (h.n_eq ▸ hi) ⟨this.start_eq,
      (List.Sublist.append (List.Sublist.refl _) hs).trans this.sub, fun e => absurd (List.isEmpty_iff.mp e) hne, fun e => ⟨rfl, by
        have := (this.ended e).2; rw [this] at hs; exact List.sublist_nil.mp hs⟩, this.cold, this.doneW, this.doneM⟩ id (fun _ _ => rfl)
    refine ⟨h1.n_eq, fun j => (h1.parts j).mono (fun e => absurd (List.isEmpty_iff.mp e) hne') id, h1.outer, h1.caught, fun _ => hne', h1.runs, h1.free, h1.freed⟩
  | @closeWait k i hk hi =>
    have hne : s.closers ≠ [] := by rintro e; rw [e] at hk; simp at hk
    have hne' : (s.closers.set k CloserPhase.waiting) ≠ [] := by simpa using hne
    exact ⟨h.n_eq, fun j => (h.parts j).mono (fun e => absurd (List.isEmpty_iff.mp e) hne') id, h.outer, h.caught, fun _ => hne', h.runs, h.free, h.freed⟩
  | @closeChan k hk hi ho =>
    have hne : s.closers ≠ [] := by rintro e; rw [e] at hk; simp at hk
    have hne' : (s.closers.set k CloserPhase.closed) ≠ [] := by simpa using hne
    exact ⟨h.n_eq, fun j => (h.parts j).mono (fun e => absurd (List.isEmpty_iff.mp e) hne') id, h.outer, h.caught, fun _ => hne', fun _ => rfl, h.free, h.freed⟩
  | stop hd hc ho => exact same rfl rfl rfl rfl rfl (.inr ho) Iff.rfl h.caught ⟨h.free, h.freed⟩
  | closed hk hi => exact same rfl rfl rfl rfl rfl (.inl rfl) Iff.rfl h.caught ⟨h.free, h.freed⟩

theorem linv_steps {R : LSys → LSys → Prop} (hR : ∀ s t, R s t → LSys.Step hwm isReorg topic s t) {s : LSys}
    (h : LSys.Steps R (.init n start msgs nr nc) s) : LInv hwm n start msgs s := by
  induction h with
  | refl => exact linv_init
  | step _ hst ih => exact linv_step ih (hR _ _ hst)

end Verif
