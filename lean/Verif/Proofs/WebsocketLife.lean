import Verif.Model.WebsocketLife
/-!
# What holds in every state of a websocket consumer
-/
namespace Verif

/-- A state that a consumer can be in. -/
def LWs.Reach (s : LWs) : Prop := LWs.Steps LWs.init s

/-- The goroutine is in one of the loops that read. -/
def LPlace.open : LPlace → Bool
  | .subscribing => true
  | .reading _ _ => true
  | _ => false

/-- It is in the read loop without a subscription id. -/
def LPlace.nosub : LPlace → Bool
  | .reading false _ => true
  | _ => false

structure LWs.Ok (s : LWs) : Prop where
  last : ∀ k, s.cur = some k → k + 1 = s.made
  held : s.place.open = true → ∃ k, s.cur = some k
  nosub : s.place.nosub = true → ∀ k, s.cur = some k → (s.conn k).failed = true
  down : ∀ k, (s.conn k).failed = true → (s.conn k).up = false
  only : ∀ k, (s.conn k).up = true → s.cur = some k ∧ s.place.open = true
  sane : s.place ≠ .crashed
  queue : s.started = false → s.tokens = min (s.grants + s.losses) connectedCap
  begun : s.started = true → 1 ≤ s.grants + s.losses
  some : 1 ≤ s.grants + s.losses → 1 ≤ s.made
  once : s.closes = if s.isReady then 1 else 0
  heard : s.isReady = true ↔ WMsg.ready ∈ s.got
  flag : s.quit = true ↔ s.closer ≠ .idle

theorem LWs.init_ok : LWs.init.Ok := by
  constructor <;> simp [LWs.init, LPlace.open, LPlace.nosub]

theorem LWs.receive_open {s : LWs} {last : Option WMsg} {f : WFrame} (h : s.place = .reading true last) :
    ∃ l, (s.receive true last f).place = .reading true l := by
  unfold LWs.receive
  split <;> simp [LWs.handle, h]

theorem LWs.receive_same {s : LWs} {sub : Bool} {last : Option WMsg} {f : WFrame} :
    (s.receive sub last f).cur = s.cur ∧ (s.receive sub last f).made = s.made ∧ (s.receive sub last f).conn = s.conn ∧
    (s.receive sub last f).quit = s.quit ∧ (s.receive sub last f).closer = s.closer ∧ (s.receive sub last f).tokens = s.tokens ∧
    (s.receive sub last f).started = s.started ∧ (s.receive sub last f).grants = s.grants ∧ (s.receive sub last f).losses = s.losses := by
  unfold LWs.receive
  split <;> (try split) <;> simp [LWs.handle]

theorem LWs.receive_ready {s : LWs} {sub : Bool} {last : Option WMsg} {f : WFrame} (h1 : s.closes = if s.isReady then 1 else 0)
    (h2 : s.isReady = true ↔ WMsg.ready ∈ s.got) :
    ((s.receive sub last f).closes = if (s.receive sub last f).isReady then 1 else 0) ∧
    ((s.receive sub last f).isReady = true ↔ WMsg.ready ∈ (s.receive sub last f).got) := by
  have key : ∀ m, ((s.handle sub m).closes = if (s.handle sub m).isReady then 1 else 0) ∧
      ((s.handle sub m).isReady = true ↔ WMsg.ready ∈ (s.handle sub m).got) := by
    intro m
    cases hr : s.isReady <;> rw [hr] at h1 h2 <;> cases m <;> simp [LWs.handle, h1, hr] <;> simpa using h2
  cases f <;> cases last <;> cases sub <;> first | exact key _ | exact ⟨h1, h2⟩

theorem LWs.upd_same (s : LWs) (k : Nat) (c : LConn) : (s.upd k c).conn k = c := by simp [LWs.upd]

theorem LWs.Go.ok {s t : LWs} (h : LWs.Go s t) (i : s.Ok) : t.Ok := by
  obtain ⟨i1, i2, i3, i4, i5, i6, i7, i8, i9, i10, i11, i12⟩ := i
  cases h with
  | again hp hq => constructor <;> simp_all [LPlace.open, LPlace.nosub]
  | stop hp hq => constructor <;> simp_all [LPlace.open, LPlace.nosub]
  | dialled hp =>
    have hno : ∀ k, (s.conn k).up = false := by
      intro k
      cases hu : (s.conn k).up with
      | false => rfl
      | true => have := (i5 k hu).2; rw [hp] at this; cases this
    constructor <;> simp only [LWs.upd, LPlace.open, LPlace.nosub]
    · intro k hk; cases hk; rfl
    · intro _; exact ⟨_, rfl⟩
    · intro h; cases h
    · intro k; split
      · intro h; cases h
      · exact i4 k
    · intro k; split
      · rename_i h; subst h; intro _; simp
      · intro h; rw [hno k] at h; cases h
    · simp
    · exact i7
    · exact i8
    · intro _; omega
    · exact i10
    · exact i11
    · exact i12
  | refused hp =>
    have hno : ∀ k, (s.conn k).up = false := by
      intro k
      cases hu : (s.conn k).up with
      | false => rfl
      | true => have := (i5 k hu).2; rw [hp] at this; cases this
    constructor <;> simp_all [LPlace.open, LPlace.nosub]
  | rested hp => constructor <;> simp_all [LPlace.open, LPlace.nosub]
  | @granted k rest hp hc hf hb =>
    have hmin : ∀ n, (if min n connectedCap < connectedCap then min n connectedCap + 1 else min n connectedCap) = min (n + 1) connectedCap := by
      intro n; split <;> omega
    have hmade : 1 ≤ s.made := by have := i1 k hc; omega
    constructor <;> simp only [LWs.upd, LWs.connected, LPlace.open, LPlace.nosub, if_true]
    · exact i1
    · intro _; exact ⟨_, hc⟩
    · intro h; cases h
    · intro j; split
      · rename_i h; subst h; exact i4 j
      · exact i4 j
    · intro j; split
      · rename_i h; subst h; intro _; exact ⟨hc, trivial⟩
      · intro h; exact ⟨(i5 j h).1, trivial⟩
    · simp
    · intro h; rw [i7 h, show s.grants + 1 + s.losses = (s.grants + s.losses) + 1 by omega]; exact hmin _
    · intro _; omega
    · intro _; exact hmade
    · exact i10
    · exact i11
    · exact i12
  | @skipped k f rest hp hc hf hb hn =>
    constructor <;> simp only [LWs.upd]
    · exact i1
    · exact i2
    · rw [hp]; intro h; cases h
    · intro j; split
      · rename_i h; subst h; exact i4 j
      · exact i4 j
    · intro j; split
      · rename_i h; subst h; exact i5 j
      · exact i5 j
    · exact i6
    · exact i7
    · exact i8
    · exact i9
    · exact i10
    · exact i11
    · exact i12
  | @lost k hp hc hf =>
    have hmin : ∀ n, (if min n connectedCap < connectedCap then min n connectedCap + 1 else min n connectedCap) = min (n + 1) connectedCap := by
      intro n; split <;> omega
    have hmade : 1 ≤ s.made := by have := i1 k hc; omega
    have hdown : (s.conn k).up = false := by
      rcases hf with h | h
      · exact i4 k h
      · exact h.2
    constructor <;> simp only [LWs.upd, LWs.connected, LPlace.open, LPlace.nosub]
    · exact i1
    · intro _; exact ⟨_, hc⟩
    · intro _ j hj; rw [hc] at hj; cases hj; simp
    · intro j; split
      · rename_i h; subst h; intro _; exact hdown
      · exact i4 j
    · intro j; split
      · rename_i h; subst h; simp only [hdown]; intro h; cases h
      · intro h; exact ⟨(i5 j h).1, trivial⟩
    · simp
    · intro h; simp only [Bool.false_eq_true, if_false]; rw [i7 h, show s.grants + (s.losses + 1) = (s.grants + s.losses) + 1 by omega]; exact hmin _
    · intro _; simp only [Bool.false_eq_true, if_false]; omega
    · intro _; exact hmade
    · exact i10
    · exact i11
    · exact i12
  | @read k sub last f rest hp hc hf hb =>
    have hsub : sub = true := by
      cases sub with
      | true => rfl
      | false =>
        have := i3 (by rw [hp]; rfl) k hc
        rw [hf] at this; cases this
    subst hsub
    have hopen := LWs.receive_open (s := s.upd k { s.conn k with buf := rest }) (f := f.seen) (last := last) (by simpa [LWs.upd] using hp)
    obtain ⟨e1, e2, e3, e4, e5, e6, e7, e8, e9⟩ :=
      LWs.receive_same (s := s.upd k { s.conn k with buf := rest }) (sub := true) (f := f.seen) (last := last)
    obtain ⟨r1, r2⟩ := LWs.receive_ready (s := s.upd k { s.conn k with buf := rest }) (sub := true) (f := f.seen) (last := last)
      (by simpa [LWs.upd] using i10) (by simpa [LWs.upd] using i11)
    obtain ⟨l, hopen⟩ := hopen
    constructor
    · rw [e1, e2]; exact i1
    · intro _; rw [e1]; exact ⟨_, hc⟩
    · rw [hopen]; intro h; cases h
    · rw [e3]; simp only [LWs.upd]; intro j; split
      · rename_i h; subst h; exact i4 j
      · exact i4 j
    · rw [e1, e3, hopen]; simp only [LWs.upd]; intro j; split
      · rename_i h; subst h; intro _; exact ⟨hc, rfl⟩
      · intro h; exact ⟨(i5 j h).1, rfl⟩
    · rw [hopen]; simp
    · rw [e6, e7, e8, e9]; exact i7
    · rw [e7, e8, e9]; exact i8
    · rw [e2, e8, e9]; exact i9
    · exact r1
    · exact r2
    · rw [e4, e5]; exact i12
  | @broken k sub last hp hc hf =>
    have hdown : (s.conn k).up = false := by
      rcases hf with h | h
      · exact i4 k h
      · exact h.2
    constructor <;> simp only [LWs.upd, LPlace.open, LPlace.nosub]
    · exact i1
    · intro h; cases h
    · intro h; cases h
    · intro j; split
      · rename_i h; subst h; intro _; exact hdown
      · exact i4 j
    · intro j; split
      · rename_i h; subst h; simp only [hdown]; intro h; cases h
      · rename_i hj
        intro h; have := (i5 j h).1; rw [hc] at this; cases this; exact absurd rfl hj
    · simp
    · exact i7
    · exact i8
    · exact i9
    · exact i10
    · exact i11
    · exact i12

theorem LWs.World.ok {s t : LWs} (h : LWs.World s t) (i : s.Ok) : t.Ok := by
  obtain ⟨i1, i2, i3, i4, i5, i6, i7, i8, i9, i10, i11, i12⟩ := i
  cases h with
  | @arrive k f hk hu =>
    refine ⟨i1, i2, ?_, ?_, ?_, i6, i7, i8, i9, i10, i11, i12⟩ <;> simp only [LWs.upd]
    · intro h j hj; split
      · rename_i e; subst e; exact i3 h j hj
      · exact i3 h j hj
    · intro j; split
      · rename_i e; subst e; exact i4 j
      · exact i4 j
    · intro j; split
      · rename_i e; subst e; exact i5 j
      · exact i5 j
  | @cut k hk hu =>
    refine ⟨i1, i2, ?_, ?_, ?_, i6, i7, i8, i9, i10, i11, i12⟩ <;> simp only [LWs.upd]
    · intro h j hj; split
      · rename_i e; subst e; exact i3 h j hj
      · exact i3 h j hj
    · intro j; split
      · intro _; rfl
      · exact i4 j
    · intro j; split
      · intro h; cases h
      · exact i5 j
  | started hs ht =>
    refine ⟨i1, i2, i3, i4, i5, i6, ?_, ?_, i9, i10, i11, i12⟩
    · intro h; cases h
    · intro _
      have := i7 hs
      simp only at *
      omega

theorem LWs.Shut.ok {s t : LWs} (h : LWs.Shut s t) (i : s.Ok) : t.Ok := by
  obtain ⟨i1, i2, i3, i4, i5, i6, i7, i8, i9, i10, i11, i12⟩ := i
  cases h with
  | flag hc =>
    refine ⟨i1, i2, i3, i4, i5, i6, i7, i8, i9, i10, i11, ?_⟩
    simp
  | @close k hc hk =>
    refine ⟨i1, i2, ?_, ?_, ?_, i6, i7, i8, i9, i10, i11, ?_⟩ <;> simp only [LWs.upd]
    · intro h j hj; split
      · rename_i e; subst e; exact i3 h j hj
      · exact i3 h j hj
    · intro j; split
      · intro _; rfl
      · exact i4 j
    · intro j; split
      · intro h; cases h
      · exact i5 j
    · rw [i12, hc]; simp
  | panic hc hk =>
    refine ⟨i1, i2, i3, i4, i5, i6, i7, i8, i9, i10, i11, ?_⟩
    simp only
    rw [i12, hc]; simp

theorem LWs.Step.ok {s t : LWs} (h : LWs.Step s t) (i : s.Ok) : t.Ok := by
  cases h with
  | go h => exact h.ok i
  | world h => exact h.ok i
  | shut h => exact h.ok i

theorem LWs.Steps.ok {s t : LWs} (h : LWs.Steps s t) (i : s.Ok) : t.Ok := by
  induction h with
  | refl => exact i
  | step _ h ih => exact h.ok ih

theorem LWs.Reach.ok {s : LWs} (h : s.Reach) : s.Ok := LWs.Steps.ok h LWs.init_ok

theorem LWs.Steps.trans {s t u : LWs} (h1 : LWs.Steps s t) (h2 : LWs.Steps t u) : LWs.Steps s u := by
  induction h2 with
  | refl => exact h1
  | step _ h ih => exact .step ih h

/-- What holds at the beginning and is kept by the steps holds at the end. -/
theorem LWs.Steps.keep {s t : LWs} (h : LWs.Steps s t) {P : LWs → Prop} (h0 : P s) (hs : s.Ok)
    (hk : ∀ a b, a.Ok → P a → LWs.Step a b → P b) : P t := by
  induction h with
  | refl => exact h0
  | step h1 h2 ih => exact hk _ _ (LWs.Steps.ok h1 hs) ih h2

end Verif
