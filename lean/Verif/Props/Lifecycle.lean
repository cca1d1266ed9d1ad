import Verif.Proofs.Lifecycle
/-!
# C90, C91: a Kafka consumer becomes ready
-/
namespace Verif

variable {hwm : Nat → RMsg → Int} {isReorg : Bool} {topic : GoStr} {n : Nat} {start : Nat → Int} {msgs : Nat → List RMsg} {nr nc : Nat}

/-! ## Every execution ends -/

/-- Steps still possible for a partition goroutine, and one for handling each of its messages. -/
def LPart.left (p : LPart) : Nat := 4 * p.todo.length + match p.phase with
  | .fresh => 2
  | .reading => 1
  | .warming _ => 4
  | .sending _ => 3
  | .ended => 0

def RdyPhase.left : RdyPhase → Nat
  | .parts => 5
  | .timer => 4
  | .reorgs => 3
  | .sending => 2
  | .sent => 1
  | .finished => 0

def ReaderPhase.left : ReaderPhase → Nat
  | .soon => 2
  | .waiting => 1
  | .released => 0

def CallerPhase.left (n : Nat) : CallerPhase → Nat
  | .soon => n + 5
  | .waiting => 1
  | .returned => 0

def CloserPhase.left (n : Nat) : CloserPhase → Nat
  | .closing i => (n - i) + 2
  | .waiting => 1
  | .closed => 0

/-- Those of all partition goroutines. -/
def partsLeft (n : Nat) (part : Nat → LPart) : Nat := ((List.range n).map (fun i => (part i).left)).sum

/-- All of them. -/
def LSys.left (s : LSys) : Nat :=
  partsLeft s.n s.part + s.chan.length + s.rdy.left + (s.readers.map ReaderPhase.left).sum +
    (s.callers.map (CallerPhase.left s.n)).sum + (s.closers.map (CloserPhase.left s.n)).sum + if s.dispatching then 1 else 0

theorem sum_set {α : Type} (f : α → Nat) {l : List α} {k : Nat} {x y : α} (h : l[k]? = some y) :
    ((l.set k x).map f).sum + f y = (l.map f).sum + f x := by
  induction l generalizing k with
  | nil => simp at h
  | cons a l ih =>
    cases k with
    | zero => simp at h; subst h; simp; omega
    | succ k =>
      have := ih (k := k) (by simpa using h)
      simp only [List.set_cons_succ, List.map_cons, List.sum_cons]
      omega

theorem sum_upd_eq (l : List Nat) (hl : l.Nodup) (f g : Nat → Nat) (i : Nat) (hi : i ∈ l) (hne : ∀ j, j ≠ i → g j = f j) :
    (l.map g).sum + f i = (l.map f).sum + g i := by
  induction l with
  | nil => simp at hi
  | cons a l ih =>
    rw [List.nodup_cons] at hl
    simp only [List.map_cons, List.sum_cons]
    by_cases ha : a = i
    · subst ha
      have : l.map g = l.map f := List.map_congr_left (fun j hj => hne j (fun e => hl.1 (e ▸ hj)))
      rw [this]; omega
    · have := ih hl.2 (by simpa [Ne.symm ha] using hi)
      have := hne a ha
      omega

theorem LSys.parts_left (s : LSys) {i : Nat} (p : LPart) (hi : i < s.n) :
    partsLeft s.n (s.upd i p).part + (s.part i).left = partsLeft s.n s.part + p.left := by
  have := sum_upd_eq (List.range s.n) List.nodup_range (fun j => (s.part j).left) (fun j => ((s.upd i p).part j).left) i
    (List.mem_range.mpr hi) (fun j hj => by simp [LSys.upd, hj])
  simpa [LSys.upd, partsLeft] using this

/-- Changing a partition goroutine. -/
theorem LSys.upd_left (s : LSys) {i : Nat} (p : LPart) (hi : i < s.n) : (s.upd i p).left + (s.part i).left = s.left + p.left := by
  have := s.parts_left p hi
  have e : (s.upd i p).left = partsLeft s.n (s.upd i p).part + s.chan.length + s.rdy.left + (s.readers.map ReaderPhase.left).sum +
    (s.callers.map (CallerPhase.left s.n)).sum + (s.closers.map (CloserPhase.left s.n)).sum + if s.dispatching then 1 else 0 := rfl
  rw [e]
  unfold LSys.left
  omega

/-- Every step brings the end nearer. -/
theorem lsys_less {s t : LSys} (h : LSys.Step hwm isReorg topic s t) : t.left < s.left := by
  cases h with
  | @begin i hi hp =>
    have := s.upd_left { s.part i with phase := .reading } hi
    have h1 : ({ s.part i with phase := .reading } : LPart).left + 1 ≤ (s.part i).left := by simp [LPart.left, hp]
    omega
  | @receive i m ms hi hp ht =>
    have := s.upd_left ((s.part i).receive s (hwm i m) m ms) hi
    have h1 : ((s.part i).receive s (hwm i m) m ms).left < (s.part i).left := by
      unfold LPart.receive
      split <;> simp [LPart.left, ht, hp] <;> omega
    omega
  | @warmed i m hi hp hall =>
    have := s.upd_left { s.part i with phase := .sending m, warm := true, done := (s.part i).look s (hwm i m) m } hi
    have h1 : ({ s.part i with phase := .sending m, warm := true, done := (s.part i).look s (hwm i m) m } : LPart).left + 1 ≤ (s.part i).left := by simp [LPart.left, hp]
    omega
  | @send i m hi hp ho hl =>
    have := s.upd_left { s.part i with phase := .reading } hi
    have e : ({ s.upd i { s.part i with phase := .reading } with chan := s.chan ++ [(i, m)] } : LSys).left =
        (s.upd i { s.part i with phase := .reading }).left + 1 := by
      simp only [LSys.left, List.length_append, List.length_singleton, LSys.upd]; omega
    rw [e]
    have h1 : ({ s.part i with phase := .reading } : LPart).left + 2 ≤ (s.part i).left := by simp [LPart.left, hp]
    omega
  | @finish i hi hp ht hl =>
    have := s.upd_left { s.part i with phase := .ended } hi
    have h1 : ({ s.part i with phase := .ended } : LPart).left + 1 ≤ (s.part i).left := by simp [LPart.left, hp]
    omega
  | caughtUp hr hd => simp only [LSys.left, hr, RdyPhase.left]; omega
  | tick hr hd => simp only [LSys.left, hr, RdyPhase.left]; omega
  | reorgsDone hr hd => simp only [LSys.left, hr, RdyPhase.left]; omega
  | ready hr hk =>
    have := sum_set ReaderPhase.left hk (x := .released)
    simp only [ReaderPhase.left] at this
    simp only [LSys.left, hr, RdyPhase.left]
    omega
  | forget hr => simp only [LSys.left, hr, RdyPhase.left]; omega
  | ask hk =>
    have := sum_set ReaderPhase.left hk (x := if s.rdy = .finished then .released else .waiting)
    have h1 : (if s.rdy = .finished then ReaderPhase.released else ReaderPhase.waiting).left < 2 := by split <;> simp [ReaderPhase.left]
    simp only [ReaderPhase.left] at this h1
    simp only [LSys.left]
    omega
  | take hd hc hk ha => simp only [LSys.left, hc, List.length_cons]; omega
  | quit hd hk =>
    have := sum_set (CallerPhase.left s.n) hk (x := .waiting)
    simp only [CallerPhase.left] at this
    simp only [LSys.left, List.map_append, List.sum_append, List.map_cons, List.map_nil, List.sum_cons, List.sum_nil, CloserPhase.left]
    omega
  | @closePart k i ms hk hi hs =>
    have := s.upd_left { s.part i with todo := ms, live := false } hi
    have h2 := sum_set (CloserPhase.left s.n) hk (x := .closing (i + 1))
    have h3 := hs.length_le
    simp only [CloserPhase.left] at h2
    have h4 : ({ s.part i with todo := ms, live := false } : LPart).left ≤ (s.part i).left := by simp only [LPart.left]; omega
    have e : ({ s.upd i { s.part i with todo := ms, live := false } with closers := s.closers.set k (.closing (i + 1)) } : LSys).left + 1 =
        (s.upd i { s.part i with todo := ms, live := false }).left := by
      simp only [LSys.left, LSys.upd]; omega
    omega
  | closeWait hk hi =>
    have h2 := sum_set (CloserPhase.left s.n) hk (x := .waiting)
    simp only [CloserPhase.left] at h2
    simp only [LSys.left]
    omega
  | closeChan hk hi ho =>
    have h2 := sum_set (CloserPhase.left s.n) hk (x := .closed)
    simp only [CloserPhase.left] at h2
    simp only [LSys.left]
    omega
  | stop hd hc ho => simp [LSys.left, hd]
  | closed hk hi =>
    have := sum_set (CallerPhase.left s.n) hk (x := .returned)
    simp only [CallerPhase.left] at this
    simp only [LSys.left]
    omega

/-- There is no endless execution. -/
theorem lsys_no_endless (f : Nat → LSys) (h : ∀ k, LSys.Step hwm isReorg topic (f k) (f (k + 1))) : False := by
  have : ∀ m k, (f k).left ≤ m → False := by
    intro m
    induction m with
    | zero => intro k hk; have := lsys_less (h k); omega
    | succ m ih => intro k hk; exact ih (k + 1) (by have := lsys_less (h k); omega)
  exact this _ 0 (Nat.le_refl _)

/-! ## C90 -/

/-- Everything that was in the partitions when the consumer started, that is everything below the offsets `hw0`, has been handled. -/
def Spec.ReadyMeansRead (n : Nat) (msgs : Nat → List RMsg) (hw0 : Nat → Int) (handled : List (Nat × RMsg)) : Prop :=
  ∀ i, i < n → ∀ m ∈ msgs i, m.offset < hw0 i → (i, m) ∈ handled

/-- The timer is slow: the dispatcher's second without a message passes only when no message is on its way from a partition goroutine to it. -/
def Spec.SlowTimer (R : LSys → LSys → Prop) (s t : LSys) : Prop :=
  R s t ∧ (s.rdy = .timer → t.rdy = .reorgs → s.chan = [] ∧ ∀ i, i < s.n → ∀ m, (s.part i).phase ≠ .sending m)

theorem mem_of_forwarded {out : List (Nat × RMsg)} {i : Nat} {m : RMsg} (h : m ∈ forwarded out i) : (i, m) ∈ out := by
  unfold forwarded at h
  obtain ⟨⟨j, x⟩, h1, h2⟩ := List.mem_map.mp h
  simp only [List.mem_filter, decide_eq_true_eq] at h1
  obtain ⟨h1, rfl⟩ := h1
  simp only at h2
  subst h2
  exact h1

/-- Handled messages stay handled, a closed consumer stays closed. -/
theorem lstep_grows {s t : LSys} (h : LSys.Step hwm isReorg topic s t) : (∀ x ∈ s.handled, x ∈ t.handled) ∧ (t.closers = [] → s.closers = []) := by
  cases h <;> refine ⟨?_, ?_⟩ <;> first | exact fun _ h => h | exact fun h => h | skip
  all_goals first | (intro x hx; exact List.mem_append_left _ hx) | (intro h; simp at h; done) | (intro h; simpa using h)

/-- Which step moves the announcing goroutine past the timer. -/
theorem lstep_rdy {s t : LSys} (h : LSys.Step hwm isReorg topic s t) (ht : t.rdy ≠ .parts ∧ t.rdy ≠ .timer) :
    (s.rdy ≠ .parts ∧ s.rdy ≠ .timer) ∨ s.rdy = .timer ∧ t = { s with rdy := .reorgs } := by
  cases h <;> first | exact .inl ht | (simp at ht; done) | skip
  case tick hr hd => exact .inr ⟨hr, rfl⟩
  all_goals (left; simp_all)

/-- **C90** (partial: for a timer that is slow compared with the partition goroutines; `C90_refuted` shows why): when somebody who waits for
`Ready` is released, and nobody has closed the consumer, everything that was there at the start has been handled. -/
theorem C90_partial {hw0 : Nat → Int} {s : LSys}
    (hsort : ∀ i, i < n → (msgs i).Pairwise (fun a b => a.offset < b.offset)) (hhw : ∀ i, i < n → ∀ m ∈ msgs i, hw0 i ≤ hwm i m)
    (h : LSys.Steps (Spec.SlowTimer (LSys.Step hwm isReorg topic)) (.init n start msgs nr nc) s) (hc : s.closers = []) {k : Nat}
    (hk : s.readers[k]? = some .released) : Spec.ReadyMeansRead n msgs hw0 s.handled := by
  have hv := linv_steps (fun _ _ h => h.1) h
  have key : ∀ s, LSys.Steps (Spec.SlowTimer (LSys.Step hwm isReorg topic)) (.init n start msgs nr nc) s → s.closers = [] →
      s.rdy ≠ .parts ∧ s.rdy ≠ .timer → Spec.ReadyMeansRead n msgs hw0 s.handled := by
    intro s h
    induction h with
    | refl => intro _ hr; simp [LSys.init] at hr
    | @step t u h1 hst ih =>
      intro hc hr
      obtain ⟨g1, g2⟩ := lstep_grows hst.1
      have hct := g2 hc
      rcases lstep_rdy hst.1 hr with hr' | ⟨hr', e⟩
      · intro i hi m hm ho
        exact g1 _ (ih hct hr' i hi m hm ho)
      · have hv := linv_steps (fun _ _ h => h.1) h1
        obtain ⟨q1, q2⟩ := hst.2 hr' (by rw [e])
        intro i hi m hm ho
        apply g1
        have hp := hv.parts i
        obtain ⟨x, x1, x2⟩ := hp.doneW (hv.caught (by simp [hr']) i hi)
        have hl : (t.part i).phase.looked = [] := by
          have := q2 i (hv.n_eq ▸ hi)
          cases hph : (t.part i).phase with
          | sending m' => exact absurd hph (this m')
          | _ => rfl
        rw [hl, List.append_nil] at x1
        obtain ⟨hall, _⟩ := hp.whole (by simp [hct])
        have hxm : x ∈ msgs i := by rw [← hall]; simp [x1]
        have hx3 := hhw i hi x hxm
        have hs := hsort i hi
        rw [← hall, List.append_assoc] at hm hs
        rcases List.mem_append.mp hm with hm | hm
        · have := mem_of_forwarded hm
          simpa [LSys.out, q1] using this
        · have := (List.pairwise_append.mp hs).2.2 x x1 m hm
          omega
  exact key s h hc (by rcases hv.free ⟨k, hk⟩ with e | e <;> simp [e])

/-- A message of an example partition: a heartbeat (empty key). -/
def exBeat (o : Int) : RMsg := { key := [], value := [], offset := o, source := str "b" }

/-- One partition with two messages. -/
def exOne : Nat → List RMsg := fun _ => [exBeat 4, exBeat 5]

/-- High water mark 6. -/
def exHwm : Nat → RMsg → Int := fun _ _ => 6

/-- All partitions of one. -/
theorem one_part {P : Nat → Prop} (h : P 0) : ∀ j, j < 1 → P j := by
  intro j hj
  have : j = 0 := by omega
  subst this; exact h

/-- **C90 fails** without the condition: the dispatcher's second passes while the partition goroutine has announced that it is done and has yet to send
its message. Nothing has been handled when the reader is released. -/
theorem C90_refuted : ∃ s, LSys.Steps (LSys.Step exHwm false (str "t")) (.init 1 (fun _ => 5) (fun _ => [exBeat 5]) 1 0) s ∧ s.closers = [] ∧
    s.readers[0]? = some .released ∧ ¬ Spec.ReadyMeansRead 1 (fun _ => [exBeat 5]) (fun _ => 6) s.handled := by
  have h0 : LSys.Steps (LSys.Step exHwm false (str "t")) (.init 1 (fun _ => 5) (fun _ => [exBeat 5]) 1 0) _ := .refl
  have h1 := h0.step (.begin (i := 0) (by decide) rfl)
  have h2 := h1.step (.receive (i := 0) (by decide) rfl rfl)
  have h3 := h2.step (.warmed (i := 0) (m := exBeat 5) (by decide) rfl (one_part rfl))
  have h4 := h3.step (.caughtUp rfl (one_part rfl))
  have h5 := h4.step (.tick rfl rfl)
  have h6 := h5.step (.reorgsDone rfl rfl)
  have h7 := h6.step (.ask (k := 0) rfl)
  have h8 := h7.step (.ready (k := 0) rfl rfl)
  refine ⟨_, h8, rfl, rfl, ?_⟩
  intro h
  have := h 0 (by decide) (exBeat 5) (by simp) (by decide)
  simp [LSys.init, LSys.upd] at this

/-- A case that meets the hypotheses of `C90_partial`: two messages are there at the start, both are handled before the timer. -/
example : ∃ s, LSys.Steps (Spec.SlowTimer (LSys.Step exHwm false (str "t"))) (.init 1 (fun _ => 4) exOne 1 0) s ∧ s.closers = [] ∧
    s.readers[0]? = some .released ∧ Spec.ReadyMeansRead 1 exOne (fun _ => 6) s.handled := by
  have step : ∀ {s t}, LSys.Steps (Spec.SlowTimer (LSys.Step exHwm false (str "t"))) (.init 1 (fun _ => 4) exOne 1 0) s →
      LSys.Step exHwm false (str "t") s t → (s.rdy = .timer → t.rdy = .reorgs → s.chan = [] ∧ ∀ i, i < s.n → ∀ m, (s.part i).phase ≠ .sending m) →
      LSys.Steps (Spec.SlowTimer (LSys.Step exHwm false (str "t"))) (.init 1 (fun _ => 4) exOne 1 0) t := fun h h1 h2 => h.step ⟨h1, h2⟩
  have no : ∀ {x : RdyPhase} {P : Prop}, x = .parts → x = .timer → P := by intro x P e1 e2; rw [e1] at e2; cases e2
  have h0 : LSys.Steps (Spec.SlowTimer (LSys.Step exHwm false (str "t"))) (.init 1 (fun _ => 4) exOne 1 0) _ := .refl
  have h1 := step h0 (.begin (i := 0) (by decide) rfl) (fun e => no rfl e)
  have h2 := step h1 (.receive (i := 0) (by decide) rfl rfl) (fun e => no rfl e)
  have h3 := step h2 (.warmed (i := 0) (m := exBeat 4) (by decide) rfl (one_part rfl)) (fun e => no rfl e)
  have h4 := step h3 (.send (i := 0) (m := exBeat 4) (by decide) rfl rfl (by decide)) (fun e => no rfl e)
  have h5 := step h4 (.receive (i := 0) (by decide) rfl rfl) (fun e => no rfl e)
  have h6 := step h5 (.send (i := 0) (m := exBeat 5) (by decide) rfl rfl (by decide)) (fun e => no rfl e)
  have h7 := step h6 (.take (a := .heartbeatGauge) (wg := 0) rfl rfl rfl (by simp)) (fun e => no rfl e)
  have h8 := step h7 (.take (a := .heartbeatGauge) (wg := 0) rfl rfl rfl (by simp)) (fun e => no rfl e)
  have h9 := step h8 (.caughtUp rfl (one_part rfl)) (fun e => no rfl e)
  have h10 := step h9 (.tick rfl rfl) (fun _ _ => ⟨rfl, one_part (by intro m; simp [LSys.upd, LSys.init])⟩)
  have h11 := step h10 (.reorgsDone rfl rfl) (by intro e; simp at e)
  have h12 := step h11 (.ask (k := 0) rfl) (by intro e; simp at e)
  have h13 := step h12 (.ready (k := 0) rfl rfl) (by intro e; simp at e)
  exact ⟨_, h13, rfl, rfl, C90_partial (k := 0) (fun _ _ => by simp [exOne, exBeat]) (fun _ _ _ _ => Int.le_refl _) h13 rfl rfl⟩

/-! ## C91 -/

/-- A message that announces a reorg. -/
def Spec.isReorgMsg (m : RMsg) : Bool := m.key.head? = some ReorgType
/-- A message that ends a reorg. -/
def Spec.isReorgEnd (m : RMsg) : Bool := m.key.head? = some ReorgCompleteType

/-- How many messages of all partitions are of a kind. -/
def Spec.inAll (n : Nat) (msgs : Nat → List RMsg) (p : RMsg → Bool) : Nat := ((List.range n).map (fun i => (msgs i).countP p)).sum

/-- What the messages must be like: the consumer of the main topic gets no announcements of reorgs (they start further consumers) and no ends; in a reorg
topic every announced reorg has an end. -/
structure Spec.ReorgsEnd (isReorg : Bool) (n : Nat) (msgs : Nat → List RMsg) : Prop where
  main : isReorg = false → ∀ i, i < n → ∀ m ∈ msgs i, Spec.isReorgMsg m = false
  reorg : isReorg = true → Spec.inAll n msgs Spec.isReorgMsg = Spec.inAll n msgs Spec.isReorgEnd

theorem sum_add {f g : Nat → Nat} (l : List Nat) : (l.map (fun i => f i + g i)).sum = (l.map f).sum + (l.map g).sum := by
  induction l with
  | nil => rfl
  | cons a l ih => simp only [List.map_cons, List.sum_cons, ih]; omega

theorem sum_one {n i c : Nat} (hi : i < n) : ((List.range n).map (fun j => if i = j then c else 0)).sum = c := by
  have := sum_upd_eq (List.range n) List.nodup_range (fun _ => 0) (fun j => if i = j then c else 0) i (List.mem_range.mpr hi)
    (fun j hj => by simp [Ne.symm hj])
  have z : ∀ l : List Nat, (l.map (fun _ => 0)).sum = 0 := by intro l; induction l <;> simp_all
  simpa [z] using this

/-- Counting all that was forwarded, partition by partition. -/
theorem count_forwarded {out : List (Nat × RMsg)} (p : RMsg → Bool) (h : ∀ i, n ≤ i → forwarded out i = []) :
    Spec.inAll n (forwarded out) p = out.countP (fun e => p e.2) := by
  unfold Spec.inAll
  induction out with
  | nil =>
    have z : ∀ l : List Nat, (l.map (fun i => (forwarded [] i).countP p)).sum = 0 := by
      intro l
      induction l with
      | nil => rfl
      | cons a l ih => simp only [List.map_cons, List.sum_cons, ih]; simp [forwarded]
    simpa using z _
  | cons e out ih =>
    obtain ⟨i, m⟩ := e
    have hf : ∀ j, forwarded ((i, m) :: out) j = (if i = j then [m] else []) ++ forwarded out j := by
      intro j
      unfold forwarded
      by_cases hj : i = j <;> simp [hj]
    have hi : i < n := by
      by_cases hi : i < n
      · exact hi
      · have := h i (by omega)
        rw [hf] at this
        simp at this
    have ih := ih (fun j hj => by have := h j hj; rw [hf] at this; exact (List.append_eq_nil_iff.mp this).2)
    have e : (fun j => (forwarded ((i, m) :: out) j).countP p) =
        (fun j => (if i = j then (if p m then 1 else 0) else 0) + (forwarded out j).countP p) := by
      funext j
      rw [hf, List.countP_append]
      split <;> simp [List.countP_cons]
    rw [e, sum_add, ih, sum_one hi, List.countP_cons, Nat.add_comm]

/-- `reorgWg` counts the reorgs that have not ended. -/
theorem lwg_steps {s : LSys} (h : LSys.Steps (LSys.Step hwm isReorg topic) (.init n start msgs nr nc) s) :
    (isReorg = false → s.wg = 0) ∧
    (isReorg = true → s.wg + s.handled.countP (fun e => Spec.isReorgEnd e.2) = s.handled.countP (fun e => Spec.isReorgMsg e.2)) := by
  induction h with
  | refl => simp [LSys.init]
  | @step t u _ hst ih =>
    cases hst <;> try exact ih
    case take i m rest a wg hd hc ha hk =>
      have hne : ¬ ReorgCompleteType = ReorgType := by decide
      have hnp : ¬ PingType = ReorgType := by decide
      have hnq : ¬ PingType = ReorgCompleteType := by decide
      simp only [List.countP_append, List.countP_cons, List.countP_nil, Spec.isReorgMsg, Spec.isReorgEnd] at ih ⊢
      unfold KC.dispatch at ha
      cases hkey : m.key with
      | nil =>
        rw [hkey] at ha
        simp only [Except.ok.injEq, Prod.mk.injEq] at ha
        rw [← ha.2]; simpa using ih
      | cons b r =>
        rw [hkey] at ha
        simp only at ha
        by_cases h1 : b = ReorgType
        · subst h1
          rw [if_pos rfl] at ha
          cases isReorg with
          | false =>
            simp only [Bool.false_eq_true, if_false, Except.ok.injEq, Prod.mk.injEq] at ha
            rw [← ha.2]
            exact ⟨ih.1, by simp⟩
          | true =>
            simp only [if_true, Except.ok.injEq, Prod.mk.injEq] at ha
            rw [← ha.2]
            refine ⟨by simp, fun _ => ?_⟩
            have := ih.2 rfl
            simp [Ne.symm hne]; omega
        · rw [if_neg h1] at ha
          by_cases h2 : b = PingType
          · subst h2
            rw [if_pos rfl] at ha
            simp only [Except.ok.injEq, Prod.mk.injEq] at ha
            rw [← ha.2]
            simpa [hnp, hnq] using ih
          · rw [if_neg h2] at ha
            by_cases h3 : b = ReorgCompleteType
            · subst h3
              rw [if_pos rfl] at ha
              cases hw : t.wg with
              | zero => rw [hw] at ha; simp at ha
              | succ w =>
                rw [hw] at ha ih
                simp only [Except.ok.injEq, Prod.mk.injEq] at ha
                rw [← ha.2]
                refine ⟨fun e => ?_, fun e => ?_⟩
                · have := ih.1 e; omega
                · have := ih.2 e; simp [hne]; omega
            · rw [if_neg h3] at ha
              simp only [Except.ok.injEq, Prod.mk.injEq] at ha
              rw [← ha.2]
              simpa [h1, h3] using ih

/-- Without a goroutine that calls `Close` nothing is closed. -/
theorem lopen_steps {s : LSys} (h : LSys.Steps (LSys.Step hwm isReorg topic) (.init n start msgs nr 0) s) : s.callers = [] ∧ s.closers = [] := by
  induction h with
  | refl => simp [LSys.init]
  | step _ hst ih =>
    cases hst <;> first | exact ih | skip
    all_goals (simp_all)

/-- No goroutine starts over. -/
theorem lreaders_length {R : LSys → LSys → Prop} (hR : ∀ s t, R s t → LSys.Step hwm isReorg topic s t) {s : LSys}
    (h : LSys.Steps R (.init n start msgs nr nc) s) : s.readers.length = nr := by
  induction h with
  | refl => simp [LSys.init]
  | step _ hst ih => cases hR _ _ hst <;> first | exact ih | simpa using ih

/-- A dispatcher that does not panic takes the next message. -/
theorem ltake {s : LSys} (hnf : ¬ s.Faulting isReorg topic) (hd : s.dispatching = true)
    (hk : ∀ e ∈ s.chan, isReorg = false → Spec.isReorgMsg e.2 = false) (hstuck : ∀ t, ¬ LSys.Step hwm isReorg topic s t) : s.chan = [] := by
  cases hc : s.chan with
  | nil => rfl
  | cons e rest =>
    obtain ⟨i, m⟩ := e
    exfalso
    cases hx : KC.dispatch isReorg topic s.wg m.key with
    | error f => exact hnf (.inr (.inr ⟨i, m, rest, f, hd, hc, hx⟩))
    | ok p =>
      obtain ⟨a, wg⟩ := p
      refine hstuck _ (.take hd hc hx ?_)
      rintro t rfl
      have hk := hk (i, m) (by simp [hc])
      unfold KC.dispatch at hx
      cases hkey : m.key with
      | nil => rw [hkey] at hx; simp at hx
      | cons b r =>
        rw [hkey] at hx
        simp only at hx
        split at hx
        · rename_i hb
          cases hr : isReorg with
          | false => have := hk hr; simp [Spec.isReorgMsg, hkey, hb] at this
          | true => rw [hr] at hx; simp at hx
        · split at hx
          · simp at hx
          · split at hx
            · split at hx <;> simp at hx
            · simp at hx

/-- **C91** (partial: with one goroutine that waits, and every partition with a message at or after its start offset and one that reaches the high water mark;
`C91_refuted_two` and `C91_refuted_empty` show why): every execution without `Close` that goes on while it can, and in which nothing panics, releases a goroutine that
waits for `Ready`. There are no endless executions (`lsys_no_endless`). -/
theorem C91_one_partial {s : LSys} (hstart : ∀ i, i < n → ∃ m ∈ msgs i, start i ≤ m.offset) (hwater : ∀ i, i < n → ∃ m ∈ msgs i, hwm i m - m.offset ≤ 1)
    (hkeys : Spec.ReorgsEnd isReorg n msgs) (h : LSys.Steps (LSys.Step hwm isReorg topic) (.init n start msgs nr 0) s) (hnr : 0 < nr)
    (hstuck : ∀ t, ¬ LSys.Step hwm isReorg topic s t) (hnf : ¬ s.Faulting isReorg topic) : ∃ k : Nat, s.readers[k]? = some .released := by
  have hv := linv_steps (fun _ _ h => h) h
  have ho := lopen_steps h
  have hn := hv.n_eq
  have hco : s.chanOpen = true := by
    cases hc : s.chanOpen with
    | true => rfl
    | false => exact absurd ho.2 (hv.shut hc)
  have hd : s.dispatching = true := by
    cases hc : s.dispatching with
    | true => rfl
    | false => have := hv.runs hc; rw [hco] at this; cases this
  have hw : ∀ i, forwarded s.out i ++ (s.part i).phase.held ++ (s.part i).todo = msgs i ∧ (s.part i).live = true :=
    fun i => (hv.parts i).whole (by simp [ho.2])
  have hmem : ∀ e ∈ s.out, e.1 < n ∧ e.2 ∈ msgs e.1 := by
    intro e he
    have hf : e.2 ∈ forwarded s.out e.1 := by
      unfold forwarded
      exact List.mem_map.mpr ⟨e, List.mem_filter.mpr ⟨he, by simp⟩, rfl⟩
    refine ⟨?_, by rw [← (hw e.1).1]; simp [hf]⟩
    by_cases hlt : e.1 < n
    · exact hlt
    · rw [hv.outer e.1 (by omega)] at hf; simp at hf
  have hchan : s.chan = [] := ltake hnf hd (fun e he hr => hkeys.main hr e.1 (hmem e (by simp [LSys.out, he])).1 e.2 (hmem e (by simp [LSys.out, he])).2) hstuck
  have hph : ∀ i, i < n → (s.part i).phase = .reading ∧ (s.part i).todo = [] ∨ ∃ m, (s.part i).phase = .warming m := by
    intro i hi
    cases hp : (s.part i).phase with
    | fresh => exact absurd (.begin (hn ▸ hi) hp) (hstuck _)
    | reading =>
      refine .inl ⟨rfl, ?_⟩
      cases ht : (s.part i).todo with
      | nil => rfl
      | cons m ms => exact absurd (.receive (hn ▸ hi) hp ht) (hstuck _)
    | warming m => exact .inr ⟨m, rfl⟩
    | sending m => exact absurd (.send (hn ▸ hi) hp hco (by simp [hchan, messagesCap])) (hstuck _)
    | ended => have := ((hv.parts i).ended hp).1; rw [(hw i).2] at this; cases this
  have harr : ∀ j, j < n → (s.part j).arrived = true := by
    intro j hj
    rcases hph j hj with ⟨hp, ht⟩ | ⟨m, hp⟩
    · cases ha : (s.part j).arrived with
      | true => rfl
      | false =>
        obtain ⟨m, hm, hm2⟩ := hstart j hj
        have hall := (hw j).1
        rw [ht, List.append_nil] at hall
        have := (hv.parts j).cold ha m (by rw [hall]; exact hm)
        omega
    · simp [LPart.arrived, hp]
  have hread : ∀ i, i < n → (s.part i).phase = .reading ∧ (s.part i).todo = [] := by
    intro i hi
    rcases hph i hi with hp | ⟨m, hp⟩
    · exact hp
    · exact absurd (.warmed (hn ▸ hi) hp (fun j hj => harr j (hn ▸ hj))) (hstuck _)
  have hfw : ∀ i, i < n → forwarded s.handled i = msgs i := by
    intro i hi
    have := (hw i).1
    rw [(hread i hi).1, (hread i hi).2] at this
    simpa [LPhase.held, LSys.out, hchan] using this
  have hwg : s.wg = 0 := by
    obtain ⟨w1, w2⟩ := lwg_steps h
    cases hr : isReorg with
    | false => exact w1 hr
    | true =>
      have w2 := w2 hr
      have hout : ∀ i, n ≤ i → forwarded s.handled i = [] := by
        have := hv.outer; rw [LSys.out, hchan, List.append_nil] at this; exact this
      have e : ∀ p, Spec.inAll n (forwarded s.handled) p = Spec.inAll n msgs p := by
        intro p
        unfold Spec.inAll
        rw [List.map_congr_left (fun i hi => by rw [hfw i (List.mem_range.mp hi)])]
      have c1 := count_forwarded (n := n) Spec.isReorgMsg hout
      have c2 := count_forwarded (n := n) Spec.isReorgEnd hout
      rw [e] at c1 c2
      have := hkeys.reorg hr
      omega
  have hone : ∃ k : Nat, k < s.readers.length := ⟨0, by rw [lreaders_length (fun _ _ h => h) h]; exact hnr⟩
  obtain ⟨k, hk⟩ := hone
  cases hr : s.rdy with
  | parts =>
    refine absurd (.caughtUp hr (fun i hi => ?_)) (hstuck _)
    obtain ⟨m, hm, hm2⟩ := hwater i (hn ▸ hi)
    refine (hv.parts i).doneM (by simp [hr]) m ?_ hm2
    have := hfw i (hn ▸ hi)
    rw [← this] at hm
    simp [LSys.out, hchan, hm]
  | timer => exact absurd (.tick hr hd) (hstuck _)
  | reorgs => exact absurd (.reorgsDone hr hwg) (hstuck _)
  | sending =>
    cases hx : s.readers[k] with
    | soon => exact absurd (.ask (k := k) (by rw [List.getElem?_eq_getElem hk, hx])) (hstuck _)
    | waiting => exact absurd (.ready (k := k) hr (by rw [List.getElem?_eq_getElem hk, hx])) (hstuck _)
    | released => exact ⟨k, by rw [List.getElem?_eq_getElem hk, hx]⟩
  | sent => exact absurd (.forget hr) (hstuck _)
  | finished => exact hv.freed (.inr hr)

/-- **C91** (partial, as above): a single goroutine that waits for `Ready` is released. -/
theorem C91_partial {s : LSys} (hstart : ∀ i, i < n → ∃ m ∈ msgs i, start i ≤ m.offset) (hwater : ∀ i, i < n → ∃ m ∈ msgs i, hwm i m - m.offset ≤ 1)
    (hkeys : Spec.ReorgsEnd isReorg n msgs) (h : LSys.Steps (LSys.Step hwm isReorg topic) (.init n start msgs 1 0) s)
    (hstuck : ∀ t, ¬ LSys.Step hwm isReorg topic s t) (hnf : ¬ s.Faulting isReorg topic) : s.readers = [.released] := by
  obtain ⟨k, hk⟩ := C91_one_partial hstart hwater hkeys h (by decide) hstuck hnf
  have hl := lreaders_length (fun _ _ h => h) h
  match hr : s.readers, hl with
  | [x], _ =>
    rw [hr] at hk
    cases k with
    | zero => simp at hk; rw [hk]
    | succ k => simp at hk

/-- When nothing can happen any more. -/
theorem lsys_stuck {s : LSys}
    (hp : ∀ i, i < s.n → (s.part i).phase = .reading ∧ (s.part i).todo = [] ∧ (s.part i).live = true ∨
      (∃ m, (s.part i).phase = .warming m) ∧ (∃ j, j < s.n ∧ (s.part j).arrived = false) ∨ (s.part i).phase = .ended)
    (hc : s.chan = []) (hr : s.rdy = .finished ∨ s.rdy = .parts ∧ (∃ i, i < s.n ∧ (s.part i).done = false) ∨
      s.rdy = .timer ∧ s.dispatching = false)
    (hrd : ∀ k : Nat, s.readers[k]? ≠ some .soon) (hcs : s.dispatching = true → ∀ k : Nat, s.callers[k]? ≠ some .soon)
    (hcw : ∀ k : Nat, s.callers[k]? = some .waiting → ∃ i, i < s.n ∧ (s.part i).running = true)
    (hcl : ∀ k : Nat, ∀ c, s.closers[k]? = some c → c = .closed ∨ c = .waiting ∧ ∃ i, i < s.n ∧ (s.part i).running = true)
    (hst : s.dispatching = true → s.chanOpen = true) : ∀ t, ¬ LSys.Step hwm isReorg topic s t := by
  intro t h
  cases h with
  | @begin i hi h1 => rcases hp i hi with h | ⟨⟨m, h⟩, _⟩ | h <;> simp [h1] at h
  | @receive i m ms hi h1 h2 => rcases hp i hi with h | ⟨⟨m, h⟩, _⟩ | h <;> simp [h1, h2] at h
  | @warmed i m hi h1 h2 =>
    rcases hp i hi with h | ⟨_, j, hj, h⟩ | h
    · simp [h1] at h
    · rw [h2 j hj] at h; cases h
    · simp [h1] at h
  | @send i m hi h1 _ _ => rcases hp i hi with h | ⟨⟨m, h⟩, _⟩ | h <;> simp [h1] at h
  | @finish i hi h1 h2 h3 => rcases hp i hi with h | ⟨⟨m, h⟩, _⟩ | h <;> simp [h1, h3] at h
  | caughtUp h1 h2 =>
    rcases hr with h | ⟨_, i, hi, h⟩ | ⟨h, _⟩
    · simp [h1] at h
    · rw [h2 i hi] at h; cases h
    · simp [h1] at h
  | tick h1 h2 =>
    rcases hr with h | ⟨h, _⟩ | ⟨_, h⟩
    · simp [h1] at h
    · simp [h1] at h
    · rw [h2] at h; cases h
  | reorgsDone h1 _ => rcases hr with h | ⟨h, _⟩ | ⟨h, _⟩ <;> simp [h1] at h
  | ready h1 _ => rcases hr with h | ⟨h, _⟩ | ⟨h, _⟩ <;> simp [h1] at h
  | forget h1 => rcases hr with h | ⟨h, _⟩ | ⟨h, _⟩ <;> simp [h1] at h
  | ask h1 => exact hrd _ h1
  | take _ h1 _ _ => rw [hc] at h1; cases h1
  | quit h1 h2 => exact hcs h1 _ h2
  | closePart h1 _ _ => rcases hcl _ _ h1 with h | h <;> simp at h
  | closeWait h1 _ => rcases hcl _ _ h1 with h | h <;> simp at h
  | closeChan h1 h2 _ =>
    rcases hcl _ _ h1 with h | ⟨_, i, hi, h⟩
    · simp at h
    · rw [h2 i hi] at h; cases h
  | stop h1 _ h2 => rw [hst h1] at h2; cases h2
  | closed h1 h2 =>
    obtain ⟨i, hi, h⟩ := hcw _ h1
    rw [h2 i hi] at h; cases h

/-- Entries of a list of two. -/
theorem two_list {α : Type} {P : α → Prop} {a b : α} (ha : P a) (hb : P b) : ∀ k : Nat, ∀ c, [a, b][k]? = some c → P c := by
  intro k c h
  match k with
  | 0 => simp at h; exact h ▸ ha
  | 1 => simp at h; exact h ▸ hb
  | k + 2 => simp at h

theorem two_part {P : Nat → Prop} (h : P 0) (h' : P 1) : ∀ j, j < 2 → P j := by
  intro j hj
  match j with
  | 0 => exact h
  | 1 => exact h'
  | j + 2 => omega

/-- The messages of the example end no reorg and start none. -/
theorem exBeats_end (msgs : Nat → List RMsg) (h : ∀ i, ∀ m ∈ msgs i, m.key = []) (n : Nat) : Spec.ReorgsEnd false n msgs :=
  ⟨fun _ i _ m hm => by simp [Spec.isReorgMsg, h i m hm], by simp⟩

/-- **C91 fails** with two goroutines: both wait on the channel `kc.ready`, one value is sent (`transports/kafka.go:641`), nothing more ever happens. -/
theorem C91_refuted_two : ∃ s, LSys.Steps (LSys.Step exHwm false (str "t")) (.init 1 (fun _ => 5) (fun _ => [exBeat 5]) 2 0) s ∧
    (∀ t, ¬ LSys.Step exHwm false (str "t") s t) ∧ ¬ s.Faulting false (str "t") ∧ s.readers = [.released, .waiting] := by
  have h0 : LSys.Steps (LSys.Step exHwm false (str "t")) (.init 1 (fun _ => 5) (fun _ => [exBeat 5]) 2 0) _ := .refl
  have h1 := h0.step (.begin (i := 0) (by decide) rfl)
  have h2 := h1.step (.receive (i := 0) (by decide) rfl rfl)
  have h3 := h2.step (.warmed (i := 0) (m := exBeat 5) (by decide) rfl (one_part rfl))
  have h4 := h3.step (.send (i := 0) (m := exBeat 5) (by decide) rfl rfl (by decide))
  have h5 := h4.step (.take (a := .heartbeatGauge) (wg := 0) rfl rfl rfl (by simp))
  have h6 := h5.step (.caughtUp rfl (one_part rfl))
  have h7 := h6.step (.tick rfl rfl)
  have h8 := h7.step (.reorgsDone rfl rfl)
  have h9 := h8.step (.ask (k := 0) rfl)
  have h10 := h9.step (.ask (k := 1) rfl)
  have h11 := h10.step (.ready (k := 0) rfl rfl)
  have h12 := h11.step (.forget rfl)
  refine ⟨_, h12, ?_, ?_, rfl⟩
  · refine lsys_stuck (one_part (.inl ⟨rfl, rfl, rfl⟩)) rfl (.inl rfl) ?_ ?_ ?_ ?_ (fun _ => rfl)
    · intro k hk; exact two_list (P := fun c => c ≠ ReaderPhase.soon) (a := .released) (b := .waiting) (by simp) (by simp) k _ hk rfl
    · intro _ k hk; have : ([] : List CallerPhase)[k]? = some .soon := hk; simp at this
    · intro k hk; have : ([] : List CallerPhase)[k]? = some .waiting := hk; simp at this
    · intro k c hk; have : ([] : List CloserPhase)[k]? = some c := hk; simp at this
  · rintro (⟨i, m, _, _, h⟩ | ⟨k, _, _, h⟩ | ⟨i, m, rest, f, _, h, _⟩)
    · cases h
    · cases h
    · cases h

/-- **C91 fails** with an empty partition: the other partition waits for it, `Ready` is never signalled. -/
theorem C91_refuted_empty : ∃ s, LSys.Steps (LSys.Step exHwm false (str "t")) (.init 2 (fun _ => 5) (fun i => if i = 0 then [exBeat 5] else []) 1 0) s ∧
    (∀ t, ¬ LSys.Step exHwm false (str "t") s t) ∧ ¬ s.Faulting false (str "t") ∧ s.readers = [.waiting] := by
  have h0 : LSys.Steps (LSys.Step exHwm false (str "t")) (.init 2 (fun _ => 5) (fun i => if i = 0 then [exBeat 5] else []) 1 0) _ := .refl
  have h1 := h0.step (.begin (i := 0) (by decide) rfl)
  have h2 := h1.step (.receive (i := 0) (by decide) rfl rfl)
  have h3 := h2.step (.begin (i := 1) (by decide) rfl)
  have h4 := h3.step (.ask (k := 0) rfl)
  refine ⟨_, h4, ?_, ?_, rfl⟩
  · refine lsys_stuck (two_part (.inr (.inl ⟨⟨_, rfl⟩, 1, by decide, rfl⟩)) (.inl ⟨rfl, rfl, rfl⟩)) rfl (.inr (.inl ⟨rfl, 1, by decide, rfl⟩)) ?_ ?_ ?_ ?_ (fun _ => rfl)
    · intro k hk
      have : [ReaderPhase.waiting][k]? = some .soon := hk
      cases k <;> simp at this
    · intro _ k hk; have : ([] : List CallerPhase)[k]? = some .soon := hk; simp at this
    · intro k hk; have : ([] : List CallerPhase)[k]? = some .waiting := hk; simp at this
    · intro k c hk; have : ([] : List CloserPhase)[k]? = some c := hk; simp at this
  · rintro (⟨i, m, _, _, h⟩ | ⟨k, _, _, h⟩ | ⟨i, m, rest, f, _, h, _⟩)
    · cases h
    · cases h
    · cases h

/-- A case that meets the hypotheses of `C91_partial` about the partitions. -/
example : (∀ i, i < 1 → ∃ m ∈ exOne i, (4 : Int) ≤ m.offset) ∧ (∀ i, i < 1 → ∃ m ∈ exOne i, exHwm i m - m.offset ≤ 1) ∧ Spec.ReorgsEnd false 1 exOne :=
  ⟨fun _ _ => ⟨exBeat 4, by simp [exOne], by decide⟩, fun _ _ => ⟨exBeat 5, by simp [exOne], by simp [exHwm, exBeat]⟩,
    exBeats_end _ (fun i m hm => by simp only [exOne, List.mem_cons, List.not_mem_nil, or_false] at hm; rcases hm with rfl | rfl <;> rfl) 1⟩

/-- An execution of it that is over. -/
example : ∃ s, LSys.Steps (LSys.Step exHwm false (str "t")) (.init 1 (fun _ => 5) (fun _ => [exBeat 5]) 1 0) s ∧
    (∀ t, ¬ LSys.Step exHwm false (str "t") s t) ∧ ¬ s.Faulting false (str "t") := by
  have h0 : LSys.Steps (LSys.Step exHwm false (str "t")) (.init 1 (fun _ => 5) (fun _ => [exBeat 5]) 1 0) _ := .refl
  have h1 := h0.step (.begin (i := 0) (by decide) rfl)
  have h2 := h1.step (.receive (i := 0) (by decide) rfl rfl)
  have h3 := h2.step (.warmed (i := 0) (m := exBeat 5) (by decide) rfl (one_part rfl))
  have h4 := h3.step (.send (i := 0) (m := exBeat 5) (by decide) rfl rfl (by decide))
  have h5 := h4.step (.take (a := .heartbeatGauge) (wg := 0) rfl rfl rfl (by simp))
  have h6 := h5.step (.caughtUp rfl (one_part rfl))
  have h7 := h6.step (.tick rfl rfl)
  have h8 := h7.step (.reorgsDone rfl rfl)
  have h9 := h8.step (.ask (k := 0) rfl)
  have h10 := h9.step (.ready (k := 0) rfl rfl)
  have h11 := h10.step (.forget rfl)
  refine ⟨_, h11, ?_, ?_⟩
  · refine lsys_stuck (one_part (.inl ⟨rfl, rfl, rfl⟩)) rfl (.inl rfl) ?_ ?_ ?_ ?_ (fun _ => rfl)
    · intro k hk
      have : [ReaderPhase.released][k]? = some .soon := hk
      cases k <;> simp at this
    · intro _ k hk; have : ([] : List CallerPhase)[k]? = some .soon := hk; simp at this
    · intro k hk; have : ([] : List CallerPhase)[k]? = some .waiting := hk; simp at this
    · intro k c hk; have : ([] : List CloserPhase)[k]? = some c := hk; simp at this
  · rintro (⟨i, m, _, _, h⟩ | ⟨k, _, _, h⟩ | ⟨i, m, rest, f, _, h, _⟩)
    · cases h
    · cases h
    · cases h

end Verif
