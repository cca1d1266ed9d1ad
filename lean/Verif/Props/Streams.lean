import Verif.Proofs.Streams
import Verif.Props.Lifecycle
/-!
# C98 to C100: subscriptions of a websocket server
-/
namespace Verif
open Spec

variable {leaves drains : Nat → Bool} {n : Nat} {stored : Nat → List WMsg} {msgs : List WMsg}

/-! ## C98: no panic, one at a time, bounded channels -/

/-- **C98**: whatever the clients, the producer and the scheduler do, nothing is sent to a closed channel and no channel is closed twice. -/
theorem C98_no_panic {s : SrvSys} (hs : SrvSys.Steps (SrvSys.Step leaves drains) (SrvSys.start n stored msgs) s) : ¬ s.Faulting := by
  rintro ⟨i, hi, ho, h⟩
  have hI := srv_steps hs
  rw [hI.size] at hi
  have k := hI.ok i hi
  have hw := k.shut.mp ho
  have hl : (s.stream i).init = .done ∧ (s.stream i).sub = false ∧ (s.stream i).due = false :=
    k.late (by rcases hw with h | h <;> simp [h]) (by rcases hw with h | h <;> simp [h])
  rcases h with ⟨m, rest, h⟩ | h | h | h
  · rw [hl.1] at h; cases h
  · rw [hl.1] at h; cases h
  · rcases hw with hw | hw <;> rw [hw] at h <;> cases h
  · rw [hl.2.2] at h; cases h

/-- **C98**: a channel is closed only while the producer is not sending. -/
theorem C98_exclusive {s t : SrvSys} (hs : SrvSys.Steps (SrvSys.Step leaves drains) (SrvSys.start n stored msgs) s) (h : SrvSys.Step leaves drains s t)
    {i : Nat} (hi : i < n) (h1 : (s.stream i).chanOpen = true) (h2 : (t.stream i).chanOpen = false) : s.prod = .idle := by
  have hI := srv_steps hs
  have same : ∀ {j x}, x.chanOpen = (s.stream j).chanOpen → ((s.upd j x).stream i).chanOpen = false → s.prod = .idle := by
    intro j x hx h2
    rw [s.upd_field (·.chanOpen) hx, h1] at h2
    cases h2
  have same' : (s.stream i).chanOpen = false → s.prod = .idle := fun h2 => by rw [h1] at h2; cases h2
  cases h with
  | @close j hj hw _ =>
    rw [hI.size] at hj
    exact hI.excl j hj (by rw [hw]; rfl)
  | rlock => exact same' h2
  | begin => exact same' h2
  | finish => exact same' h2
  | _ => exact same (by rfl) h2

/-- **C98**: at most 1000 messages wait in the channel of a client; of the stored blocks not more than eleven, unless the client has left. -/
theorem C98_bounded {s : SrvSys} (hs : SrvSys.Steps (SrvSys.Step leaves drains) (SrvSys.start n stored msgs) s) {i : Nat} (hi : i < n) :
    (s.stream i).chan.length ≤ 1000 ∧ (∀ rest, (s.stream i).init = .stored rest → (s.stream i).gone = false → (s.stream i).chan.length ≤ 11) :=
  ⟨((srv_steps hs).ok i hi).cap, ((srv_steps hs).ok i hi).high⟩

/-! ## C99: what a client is sent -/

/-- What a client is sent, given the stored blocks and the messages of the feed: the stored blocks, or the first of them; then the messages of the feed,
with one message `ready` put somewhere among them, or yet to come. -/
def Spec.StreamOf (stored live l : List WMsg) : Prop :=
  (l <+: stored ∧ live = []) ∨ l = stored ++ live ∨ ∃ a b, live = a ++ b ∧ l = stored ++ a ++ [.ready] ++ b

/-- The number of messages given to the feed when a client subscribed does not change later. -/
theorem srv_since {s t : SrvSys} (h : SrvSys.Step leaves drains s t) {i : Nat} (hi : (s.stream i).init = .subscribed ∨ (s.stream i).init = .done) :
    ((t.stream i).init = .subscribed ∨ (t.stream i).init = .done) ∧ (t.stream i).since = (s.stream i).since := by
  have same : ∀ {j x}, x.init = (s.stream j).init → x.since = (s.stream j).since →
      (((s.upd j x).stream i).init = .subscribed ∨ ((s.upd j x).stream i).init = .done) ∧ ((s.upd j x).stream i).since = (s.stream i).since := by
    intro j x h1 h2
    rw [s.upd_field (·.init) h1, s.upd_field (·.since) h2]
    exact ⟨hi, rfl⟩
  have late : ∀ {j x}, x.init = .done → x.since = (s.stream j).since →
      (((s.upd j x).stream i).init = .subscribed ∨ ((s.upd j x).stream i).init = .done) ∧ ((s.upd j x).stream i).since = (s.stream i).since := by
    intro j x h1 h2
    rw [s.upd_field (·.since) h2]
    refine ⟨?_, rfl⟩
    by_cases e : i = j
    · subst e; rw [SrvSys.upd_same]; exact .inr h1
    · rw [SrvSys.upd_other s _ e]; exact hi
  have other : ∀ {j x}, (s.stream j).init ≠ .subscribed → (s.stream j).init ≠ .done →
      (((s.upd j x).stream i).init = .subscribed ∨ ((s.upd j x).stream i).init = .done) ∧ ((s.upd j x).stream i).since = (s.stream i).since := by
    intro j x h1 h2
    have e : i ≠ j := by
      rintro rfl
      rcases hi with hi | hi
      · exact h1 hi
      · exact h2 hi
    rw [SrvSys.upd_other s _ e]
    exact ⟨hi, rfl⟩
  cases h with
  | push _ hp => exact other (by rw [hp]; simp) (by rw [hp]; simp)
  | check _ hp => exact other (by rw [hp]; simp) (by rw [hp]; simp)
  | skip _ hp => exact other (by rw [hp]; simp) (by rw [hp]; simp)
  | subscribe _ hp => exact other (by rw [hp]; simp) (by rw [hp]; simp)
  | ready => exact late rfl rfl
  | rlock => exact ⟨hi, rfl⟩
  | begin => exact ⟨hi, rfl⟩
  | finish => exact ⟨hi, rfl⟩
  | _ => exact same rfl rfl

/-- **C99**, before the subscription: a client that is not yet subscribed to the feed has been sent the first of the stored blocks, in order, each once, and nothing else. -/
theorem C99_stored {s : SrvSys} (hs : SrvSys.Steps (SrvSys.Step leaves drains) (SrvSys.start n stored msgs) s) {i : Nat} (hi : i < n)
    (hn : (s.stream i).init ≠ .subscribed) (hd : (s.stream i).init ≠ .done) : (s.stream i).got ++ (s.stream i).chan <+: stored i := by
  have h := ((srv_steps hs).ok i hi).items
  unfold SrvItems at h
  split at h
  · exact ⟨_, h.1.symm⟩
  · exact ⟨[], by rw [h.1]; simp⟩
  · rename_i e; exact absurd e hn
  · rename_i e; exact absurd e hd

/-- What is remembered of the moment of `feed.Subscribe`. -/
theorem srv_subscribed {s t u : SrvSys} (hs : SrvSys.Steps (SrvSys.Step leaves drains) (SrvSys.start n stored msgs) s) (h : SrvSys.Step leaves drains s t)
    {i : Nat} (h1 : (s.stream i).sub = false) (h2 : (t.stream i).sub = true) (hu : SrvSys.Steps (SrvSys.Step leaves drains) t u) :
    SrvInv n stored msgs u ∧ ((u.stream i).init = .subscribed ∨ (u.stream i).init = .done) ∧ (u.stream i).since = some s.sent.length := by
  have ht : ((t.stream i).init = .subscribed ∨ (t.stream i).init = .done) ∧ (t.stream i).since = some s.sent.length := by
    have same : ∀ {j x}, x.sub = (s.stream j).sub → ((s.upd j x).stream i).sub = true →
        (((s.upd j x).stream i).init = .subscribed ∨ ((s.upd j x).stream i).init = .done) ∧ ((s.upd j x).stream i).since = some s.sent.length := by
      intro j x hx h2
      rw [s.upd_field (·.sub) hx, h1] at h2
      cases h2
    have same' : ∀ {P : Prop}, (s.stream i).sub = true → P := fun h2 => by rw [h1] at h2; cases h2
    cases h with
    | @subscribe j hj hp =>
      by_cases e : i = j
      · subst e; rw [SrvSys.upd_same]; exact ⟨.inl rfl, rfl⟩
      · rw [SrvSys.upd_other s _ e, h1] at h2; cases h2
    | @unsubscribe j hj hp =>
      by_cases e : i = j
      · subst e; rw [SrvSys.upd_same] at h2; cases h2
      · rw [SrvSys.upd_other s _ e, h1] at h2; cases h2
    | rlock => exact same' h2
    | begin => exact same' h2
    | finish => exact same' h2
    | _ => exact same (by rfl) h2
  induction hu with
  | refl => exact ⟨srv_step (srv_steps hs) h, ht⟩
  | step _ h' ih =>
    obtain ⟨a, b, c⟩ := ih
    obtain ⟨d, e⟩ := srv_since h' b
    exact ⟨srv_step a h', d, e.trans c⟩

/-- **C99**: from the moment `feed.Subscribe` returns for a client, it is sent all stored blocks, and then, in order and once each, the messages whose `feed.Send` begins
after that moment, as long as it has not left; `ready` comes once among them. While it is subscribed only the message being sent can be missing. -/
theorem C99_live {s t u : SrvSys} (hs : SrvSys.Steps (SrvSys.Step leaves drains) (SrvSys.start n stored msgs) s) (h : SrvSys.Step leaves drains s t)
    {i : Nat} (hi : i < n) (h1 : (s.stream i).sub = false) (h2 : (t.stream i).sub = true) (hu : SrvSys.Steps (SrvSys.Step leaves drains) t u) :
    ∃ live, StreamOf (stored i) live ((u.stream i).got ++ (u.stream i).chan) ∧ stored i <+: (u.stream i).got ++ (u.stream i).chan ∧
      live <+: u.sent.drop s.sent.length ∧
      ((u.stream i).sub = true → (u.stream i).due = false → live = u.sent.drop s.sent.length) ∧
      ((u.stream i).due = true → ∃ m, u.prod = .sending m ∧ live ++ [m] = u.sent.drop s.sent.length) ∧
      ((u.stream i).init = .done → .ready ∈ (u.stream i).got ++ (u.stream i).chan) := by
  obtain ⟨hI, hin, hsi⟩ := srv_subscribed hs h h1 h2 hu
  have k := (hI.ok i hi).items
  unfold SrvItems at k
  rcases hin with hin | hin
  · rw [hin] at k
    obtain ⟨_, l, e, hl⟩ := k
    have el : s.sent.length = (u.stream i).since.getD 0 := by rw [hsi]; rfl
    rw [el]
    exact ⟨l, .inr (.inl e), ⟨l, e.symm⟩, hl.pre, hl.all, hl.due, fun h => by rw [hin] at h; cases h⟩
  · rw [hin] at k
    rcases k with ⟨_, h3, h4⟩ | ⟨a, b, e, hl⟩
    · rw [hsi] at h4; cases h4.2
    · have el : s.sent.length = (u.stream i).since.getD 0 := by rw [hsi]; rfl
      rw [el]
      exact ⟨a ++ b, .inr (.inr ⟨a, b, rfl, by rw [e]; simp⟩), ⟨_, e.symm⟩, hl.pre, hl.all, hl.due, fun _ => by rw [e]; simp⟩

/-! ## C100: leaving -/

def SrvInit.left : SrvInit → Nat
  | .stored rest => 2 * rest.length + 4
  | .checked => 3
  | .subscribed => 2
  | .done => 0

def SrvWatch.left : SrvWatch → Nat
  | .idle => 5
  | .waiting => 4
  | .locking => 3
  | .locked => 2
  | .closed => 1
  | .ended => 0

/-- Steps still possible for a subscription, not counting messages the producer has yet to send. -/
def SrvStream.left (x : SrvStream) : Nat := x.init.left + x.watch.left + x.chan.length + (if x.due then 2 else 0) + if x.gone then 0 else 1

/-- Steps still possible for the producer and for the messages it has yet to send. -/
def SrvSys.prodLeft (s : SrvSys) : Nat := (2 * s.n + 3) * s.todo.length + match s.prod with
  | .idle => 0
  | .holding _ => 2 * s.n + 2
  | .sending _ => 1

/-- All of them. -/
def SrvSys.left (s : SrvSys) : Nat := s.prodLeft + ((List.range s.n).map (fun i => (s.stream i).left)).sum

theorem SrvSys.upd_left (s : SrvSys) {i : Nat} (x : SrvStream) (hi : i < s.n) (hx : x.left < (s.stream i).left) : (s.upd i x).left < s.left := by
  have h := sum_upd_eq (List.range s.n) List.nodup_range (fun j => (s.stream j).left) (fun j => ((s.upd i x).stream j).left) i
    (List.mem_range.mpr hi) (fun j hj => by simp [SrvSys.upd, hj])
  have e : ((s.upd i x).stream i).left = x.left := by rw [SrvSys.upd_same]
  have e1 : (s.upd i x).left = s.prodLeft + ((List.range s.n).map (fun j => ((s.upd i x).stream j).left)).sum := rfl
  rw [e1]
  unfold SrvSys.left
  simp only [e] at h
  omega

theorem sum_le_add (l : List Nat) (f g : Nat → Nat) (c : Nat) (h : ∀ j, g j ≤ f j + c) : (l.map g).sum ≤ (l.map f).sum + c * l.length := by
  induction l with
  | nil => simp
  | cons a l ih =>
    have := h a
    simp only [List.map_cons, List.sum_cons, List.length_cons, Nat.mul_add, Nat.mul_one]
    omega

/-- Every step brings the end nearer. -/
theorem srv_less {s t : SrvSys} (h : SrvSys.Step leaves drains s t) : t.left < s.left := by
  cases h with
  | push hi hp => exact s.upd_left _ hi (by simp [SrvStream.left, hp, SrvInit.left]; omega)
  | check hi hp => exact s.upd_left _ hi (by simp [SrvStream.left, hp, SrvInit.left])
  | skip hi hp => exact s.upd_left _ hi (by simp [SrvStream.left, hp, SrvInit.left])
  | subscribe hi hp => exact s.upd_left _ hi (by simp [SrvStream.left, hp, SrvInit.left])
  | ready hi hp => exact s.upd_left _ hi (by simp [SrvStream.left, hp, SrvInit.left]; omega)
  | seen hi hp => exact s.upd_left _ hi (by simp [SrvStream.left, hp, SrvWatch.left])
  | unsubscribe hi hp => exact s.upd_left _ hi (by simp [SrvStream.left, hp, SrvWatch.left]; omega)
  | lock hi hp => exact s.upd_left _ hi (by simp [SrvStream.left, hp, SrvWatch.left])
  | close hi hp => exact s.upd_left _ hi (by simp [SrvStream.left, hp, SrvWatch.left])
  | unlock hi hp => exact s.upd_left _ hi (by simp [SrvStream.left, hp, SrvWatch.left])
  | read hi hp => exact s.upd_left _ hi (by simp [SrvStream.left, hp])
  | leave hi hl hg => exact s.upd_left _ hi (by simp [SrvStream.left, hg])
  | deliver hi hp hd => exact s.upd_left _ hi (by simp [SrvStream.left, hd]; omega)
  | rlock hp ht =>
    simp only [SrvSys.left, SrvSys.prodLeft, hp, ht, List.length_cons, Nat.mul_add, Nat.mul_one]
    omega
  | finish hp => simp only [SrvSys.left, SrvSys.prodLeft, hp]; omega
  | begin hp =>
    have := sum_le_add (List.range s.n) (fun j => (s.stream j).left) (fun j => ({ s.stream j with due := (s.stream j).sub } : SrvStream).left) 2
      (fun j => by simp only [SrvStream.left]; split <;> split <;> omega)
    rw [List.length_range] at this
    simp only [] at this
    simp only [SrvSys.left, SrvSys.prodLeft, hp]
    omega

/-- There is no endless execution. -/
theorem srv_no_endless (f : Nat → SrvSys) (h : ∀ k, SrvSys.Step leaves drains (f k) (f (k + 1))) : False := by
  have : ∀ m k, (f k).left ≤ m → False := by
    intro m
    induction m with
    | zero => intro k hk; have := srv_less (h k); omega
    | succ m ih => intro k hk; exact ih (k + 1) (by have := srv_less (h k); omega)
  exact this _ 0 (Nat.le_refl _)

/-- No goroutine can take a step. -/
def SrvSys.AtRest (leaves drains : Nat → Bool) (s : SrvSys) : Prop := ∀ t, ¬ SrvSys.Step leaves drains s t

/-- A client that has left while the first goroutine still had something to send, with a full channel nobody reads. -/
def Spec.Abandoned (drains : Nat → Bool) (s : SrvSys) (i : Nat) : Prop :=
  (s.stream i).gone = true ∧ drains i = false ∧ (s.stream i).chan.length = 1000 ∧
    ((∃ m rest, (s.stream i).init = .stored (m :: rest)) ∨ (s.stream i).init = .subscribed)

/-- Everything is done: the producer's calls have returned; of a client that leaves both goroutines have ended and the channel is closed; a client that stays has been sent
all stored blocks and all messages since its subscription. -/
structure Spec.AllDone (n : Nat) (stored : Nat → List WMsg) (msgs : List WMsg) (leaves : Nat → Bool) (s : SrvSys) : Prop where
  producer : s.todo = [] ∧ s.sent = msgs
  left : ∀ i, i < n → leaves i = true → (s.stream i).init = .done ∧ (s.stream i).watch = .ended ∧ (s.stream i).chanOpen = false ∧ (s.stream i).sub = false
  stays : ∀ i, i < n → leaves i = false → ∃ k a b, k ≤ msgs.length ∧ a ++ b = msgs.drop k ∧ (s.stream i).got = stored i ++ a ++ [.ready] ++ b

/-- A client that does not leave stays. -/
theorem srv_stays {s : SrvSys} (hs : SrvSys.Steps (SrvSys.Step leaves drains) (SrvSys.start n stored msgs) s) (i : Nat) (hl : leaves i = false) : (s.stream i).gone = false := by
  induction hs with
  | refl => rfl
  | @step s t _ h ih =>
    have same : ∀ {j x}, x.gone = (s.stream j).gone → ((s.upd j x).stream i).gone = false := fun hx => (s.upd_field (·.gone) hx).trans ih
    cases h with
    | @leave j hj hlj hg =>
      have e : i ≠ j := by rintro rfl; rw [hl] at hlj; cases hlj
      rw [SrvSys.upd_other s _ e]; exact ih
    | rlock => exact ih
    | begin => exact ih
    | finish => exact ih
    | _ => exact same (by rfl)

/-- **C100**, the part that holds: there is no endless execution, and a server at rest is done unless some client left while the first goroutine of its subscription
still had something to send, its channel is full, and the library does not read on. -/
theorem C100_partial {s : SrvSys} (hs : SrvSys.Steps (SrvSys.Step leaves drains) (SrvSys.start n stored msgs) s) (hr : s.AtRest leaves drains) :
    (∃ i, i < n ∧ Abandoned drains s i) ∨ AllDone n stored msgs leaves s := by
  have hI := srv_steps hs
  have hn := hI.size
  refine Classical.or_iff_not_imp_left.mpr (fun hno => ?_)
  have hno : ∀ i, i < n → ¬ Abandoned drains s i := fun i hi ha => hno ⟨i, hi, ha⟩
  -- a channel that is not empty is not read any more
  have quiet : ∀ i, i < n → (s.stream i).chan ≠ [] → (s.stream i).gone = true ∧ drains i = false := by
    intro i hi hc
    cases hch : (s.stream i).chan with
    | nil => exact absurd hch hc
    | cons m rest =>
      constructor
      · cases hg : (s.stream i).gone with
        | true => rfl
        | false => exact absurd (.read (hn ▸ hi) hch (.inl hg)) (hr _)
      · cases hd : drains i with
        | false => rfl
        | true => exact absurd (.read (hn ▸ hi) hch (.inr hd)) (hr _)
  have full : ∀ i, i < n → ¬ (s.stream i).chan.length < subchCap → (s.stream i).chan.length = 1000 ∧ (s.stream i).chan ≠ [] := by
    intro i hi hc
    have hcap := (hI.ok i hi).cap
    have e : (s.stream i).chan.length = 1000 := by unfold subchCap at hc hcap; omega
    exact ⟨e, fun h => by rw [h] at e; simp at e⟩
  have openOf : ∀ i, i < n → (s.stream i).watch ≠ .closed → (s.stream i).watch ≠ .ended → (s.stream i).chanOpen = true := by
    intro i hi h1 h2
    cases ho : (s.stream i).chanOpen with
    | true => rfl
    | false => rcases (hI.ok i hi).shut.mp ho with h | h <;> contradiction
  have early : ∀ i, i < n → (s.stream i).init ≠ .done → (s.stream i).chanOpen = true := by
    intro i hi h1
    have hw : (s.stream i).watch = .idle ∨ (s.stream i).watch = .waiting := by
      refine Classical.byContradiction (fun h => ?_)
      exact h1 ((hI.ok i hi).late (fun e => h (.inl e)) (fun e => h (.inr e))).1
    exact openOf i hi (by rcases hw with h | h <;> simp [h]) (by rcases hw with h | h <;> simp [h])
  -- the first goroutines have ended
  have hinit : ∀ i, i < n → (s.stream i).init = .done := by
    intro i hi
    cases hin : (s.stream i).init with
    | done => rfl
    | checked => exact absurd (.subscribe (hn ▸ hi) hin) (hr _)
    | subscribed =>
      exfalso
      by_cases hc : (s.stream i).chan.length < subchCap
      · exact hr _ (.ready (hn ▸ hi) hin hc (early i hi (by simp [hin])))
      · obtain ⟨e, hne⟩ := full i hi hc
        obtain ⟨q1, q2⟩ := quiet i hi hne
        exact hno i hi ⟨q1, q2, e, .inr hin⟩
    | stored rest =>
      exfalso
      cases rest with
      | nil =>
        cases hg : (s.stream i).gone with
        | true => exact hr _ (.skip (hn ▸ hi) hin hg)
        | false => exact hr _ (.check (hn ▸ hi) hin hg)
      | cons m rest =>
        by_cases hc : (s.stream i).chan.length < subchCap
        · refine hr _ (.push (hn ▸ hi) hin ?_ hc (early i hi (by simp [hin])))
          by_cases he : (s.stream i).chan = []
          · left; rw [he]; simp
          · exact .inr (quiet i hi he).1
        · obtain ⟨e, hne⟩ := full i hi hc
          obtain ⟨q1, q2⟩ := quiet i hi hne
          exact hno i hi ⟨q1, q2, e, .inl ⟨m, rest, hin⟩⟩
  have hw1 : ∀ i, i < n → (s.stream i).watch ≠ .waiting := fun i hi h => hr _ (.unsubscribe (hn ▸ hi) h (hinit i hi))
  have hw2 : ∀ i, i < n → (s.stream i).watch ≠ .locked := fun i hi h =>
    hr _ (.close (hn ▸ hi) h (openOf i hi (by simp [h]) (by simp [h])))
  have hw3 : ∀ i, i < n → (s.stream i).watch ≠ .closed := fun i hi h => hr _ (.unlock (hn ▸ hi) h)
  have hw4 : ∀ i, i < n → (s.stream i).watch = .idle → (s.stream i).gone = false := by
    intro i hi h
    cases hg : (s.stream i).gone with
    | false => rfl
    | true => exact absurd (.seen (hn ▸ hi) h hg) (hr _)
  have hold : ∀ i, i < n → (s.stream i).watch.holds = false := by
    intro i hi
    have h2 := hw2 i hi
    have h3 := hw3 i hi
    cases hw : (s.stream i).watch <;> simp_all [SrvWatch.holds]
  -- the producer
  have hprod : s.prod = .idle := by
    cases hp : s.prod with
    | idle => rfl
    | holding m => exact absurd (.begin hp) (hr _)
    | sending m =>
      exfalso
      refine hr _ (.finish hp (fun j hj => ?_))
      rw [hn] at hj
      cases hd : (s.stream j).due with
      | false => rfl
      | true =>
        exfalso
        have k := hI.ok j hj
        have hsub := (k.dueSub hd).1
        have hwi : (s.stream j).watch = .idle := by
          refine Classical.byContradiction (fun h => ?_)
          have := (k.late h (hw1 j hj)).2.1
          rw [hsub] at this; cases this
        have ho := openOf j hj (by simp [hwi]) (by simp [hwi])
        by_cases hc : (s.stream j).chan.length < subchCap
        · exact hr _ (.deliver (hn ▸ hj) hp hd hc ho)
        · have := (quiet j hj (full j hj hc).2).1
          rw [hw4 j hj hwi] at this; cases this
  have hw5 : ∀ i, i < n → (s.stream i).watch ≠ .locking := fun i hi h =>
    hr _ (.lock (hn ▸ hi) h hprod (fun j hj => hold j (hn ▸ hj)))
  have htodo : s.todo = [] := by
    cases ht : s.todo with
    | nil => rfl
    | cons m rest =>
      refine absurd (.rlock hprod ht (fun j hj => ?_)) (hr _)
      rw [hn] at hj
      have h1 := hold j hj
      have h5 := hw5 j hj
      simp [SrvWatch.excludes, h1, h5]
  have hsent : s.sent = msgs := by
    have := hI.msgs
    rw [hprod, htodo] at this
    simpa [SrvProd.inHand] using this
  refine ⟨⟨htodo, hsent⟩, fun i hi hl => ?_, fun i hi hl => ?_⟩
  · have k := hI.ok i hi
    have hg : (s.stream i).gone = true := by
      cases hg : (s.stream i).gone with
      | true => rfl
      | false => exact absurd (.leave (hn ▸ hi) hl hg) (hr _)
    have hw : (s.stream i).watch = .ended := by
      have h1 := hw1 i hi
      have h2 := hw2 i hi
      have h3 := hw3 i hi
      have h5 := hw5 i hi
      have h4 : (s.stream i).watch ≠ .idle := fun h => by have := hw4 i hi h; rw [hg] at this; cases this
      cases hw : (s.stream i).watch <;> simp_all
    exact ⟨hinit i hi, hw, k.shut.mpr (.inr hw), (k.late (by simp [hw]) (by simp [hw])).2.1⟩
  · have k := hI.ok i hi
    have hg := srv_stays hs i hl
    have hc : (s.stream i).chan = [] := by
      refine Classical.byContradiction (fun h => ?_)
      have := (quiet i hi h).1
      rw [hg] at this; cases this
    have hsub : (s.stream i).sub = true := by
      cases hsu : (s.stream i).sub with
      | true => rfl
      | false => have := k.stays (hinit i hi) hsu; rw [hg] at this; cases this
    have hdue : (s.stream i).due = false := by
      cases hd : (s.stream i).due with
      | false => rfl
      | true => obtain ⟨_, m, hm⟩ := k.dueSub hd; rw [hprod] at hm; cases hm
    have hit := k.items
    unfold SrvItems at hit
    rw [hinit i hi] at hit
    rcases hit with ⟨_, h, _⟩ | ⟨a, b, e, hl⟩
    · rw [hsub] at h; cases h
    · rw [hc, List.append_nil] at e
      refine ⟨(s.stream i).since.getD 0, a, b, hsent ▸ hl.since, hsent ▸ hl.all hsub hdue, by rw [e]; simp⟩

/-- **C100**, if the library reads on after a client has left: at rest everything is done. -/
theorem C100_drained_partial {s : SrvSys} (hs : SrvSys.Steps (SrvSys.Step leaves drains) (SrvSys.start n stored msgs) s) (hr : s.AtRest leaves drains)
    (hd : ∀ i, i < n → drains i = true) : AllDone n stored msgs leaves s := by
  rcases C100_partial hs hr with ⟨i, hi, h⟩ | h
  · have := h.2.1; rw [hd i hi] at this; cases this
  · exact h

/-- The length of what a client has been sent before `ready`. -/
theorem srv_short {s : SrvSys} (hI : SrvInv n stored msgs s) {i : Nat} (hi : i < n)
    (h : (∃ m rest, (s.stream i).init = .stored (m :: rest)) ∨ (s.stream i).init = .subscribed) :
    (s.stream i).chan.length ≤ (stored i).length + msgs.length ∧ ((∃ m rest, (s.stream i).init = .stored (m :: rest)) → (s.stream i).chan.length < (stored i).length) := by
  have hit := (hI.ok i hi).items
  unfold SrvItems at hit
  rcases h with ⟨m, rest, h⟩ | h
  · rw [h] at hit
    have := congrArg List.length hit.1
    simp only [List.length_append, List.length_cons] at this
    exact ⟨by omega, fun _ => by omega⟩
  · rw [h] at hit
    obtain ⟨_, l, e, hl⟩ := hit
    refine ⟨?_, fun ⟨m, rest, h'⟩ => by rw [h] at h'; cases h'⟩
    have h1 := congrArg List.length e
    have h2 := hl.pre.length_le
    have h3 := congrArg List.length hI.msgs
    simp only [List.length_append, List.length_drop] at h1 h2 h3
    omega

/-- **C100**, if for each client the stored blocks and what the producer sends come to less than the capacity of the channel: at rest everything is done. -/
theorem C100_short_partial {s : SrvSys} (hs : SrvSys.Steps (SrvSys.Step leaves drains) (SrvSys.start n stored msgs) s) (hr : s.AtRest leaves drains)
    (hd : ∀ i, i < n → (stored i).length + msgs.length < 1000) : AllDone n stored msgs leaves s := by
  rcases C100_partial hs hr with ⟨i, hi, h⟩ | h
  · have := (srv_short (srv_steps hs) hi h.2.2.2).1
    have := hd i hi
    have := h.2.2.1
    omega
  · exact h

/-- A client leaves only after the first goroutine of its subscription has ended, as when it waits for `ready`. -/
def Spec.LeavesReady (R : SrvSys → SrvSys → Prop) (s t : SrvSys) : Prop :=
  R s t ∧ ∀ i, (s.stream i).gone = false → (t.stream i).gone = true → (s.stream i).init = .done

theorem Spec.LeavesReady.steps {R : SrvSys → SrvSys → Prop} {s t : SrvSys} (h : SrvSys.Steps (LeavesReady R) s t) : SrvSys.Steps R s t := by
  induction h with
  | refl => exact .refl
  | step _ h ih => exact .step ih h.1

/-- **C100**, if clients leave only after they could have got `ready`: at rest everything is done. -/
theorem C100_ready_partial {s : SrvSys} (hs : SrvSys.Steps (LeavesReady (SrvSys.Step leaves drains)) (SrvSys.start n stored msgs) s) (hr : s.AtRest leaves drains) :
    AllDone n stored msgs leaves s := by
  have key : ∀ i, (s.stream i).gone = true → (s.stream i).init = .done := by
    intro i
    clear hr
    induction hs with
    | refl => intro h; cases h
    | @step s t _ h ih =>
      intro hg
      have hd : (s.stream i).init = .done := by
        cases hg' : (s.stream i).gone with
        | true => exact ih hg'
        | false => exact h.2 i hg' hg
      have same : ∀ {j x}, x.init = (s.stream j).init → ((s.upd j x).stream i).init = .done := fun hx => (s.upd_field (·.init) hx).trans hd
      have other : ∀ {j x}, (s.stream j).init ≠ .done → ((s.upd j x).stream i).init = .done := by
        intro j x hj
        have e : i ≠ j := by rintro rfl; exact hj hd
        rw [SrvSys.upd_other s _ e]; exact hd
      cases h.1 with
      | push _ hp => exact other (by rw [hp]; simp)
      | check _ hp => exact other (by rw [hp]; simp)
      | skip _ hp => exact other (by rw [hp]; simp)
      | subscribe _ hp => exact other (by rw [hp]; simp)
      | ready _ hp => exact other (by rw [hp]; simp)
      | rlock => exact hd
      | begin => exact hd
      | finish => exact hd
      | _ => exact same (by rfl)
  rcases C100_partial (LeavesReady.steps hs) hr with ⟨i, hi, h⟩ | h
  · have := key i h.1
    rcases h.2.2.2 with ⟨m, rest, h⟩ | h <;> rw [this] at h <;> cases h
  · exact h

/-! ## C100 is false of the code -/

theorem SrvSys.Steps.trans {R : SrvSys → SrvSys → Prop} {s t u : SrvSys} (h : SrvSys.Steps R s t) (h' : SrvSys.Steps R t u) : SrvSys.Steps R s u := by
  induction h' with
  | refl => exact h
  | step _ h1 ih => exact .step ih h1

theorem SrvSys.Steps.one {R : SrvSys → SrvSys → Prop} {s t : SrvSys} (h : R s t) : SrvSys.Steps R s t := .step .refl h

/-- The client of subscription 0 leaves, and nobody reads its channel after that. -/
def exLeaves (i : Nat) : Bool := i == 0
def exDrains (_ : Nat) : Bool := false

/-- Client 0 has left when `k` of the 1001 stored blocks were on its channel. -/
structure ExLeak (k : Nat) (s : SrvSys) : Prop where
  n : s.n = 1
  rest : ∃ rest, (s.stream 0).init = .stored rest ∧ rest.length + k = 1001
  watch : (s.stream 0).watch = .waiting
  chan : (s.stream 0).chan.length = k
  gone : (s.stream 0).gone = true ∧ (s.stream 0).chanOpen = true
  prod : s.prod = .idle ∧ s.todo = []

theorem exLeak_next {k : Nat} (hk : k < 1000) {s : SrvSys} (h : ExLeak k s) : ∃ t, SrvSys.Step exLeaves exDrains s t ∧ ExLeak (k + 1) t := by
  obtain ⟨rest, h1, h2⟩ := h.rest
  cases rest with
  | nil => simp at h2; omega
  | cons m rest =>
    refine ⟨_, .push (i := 0) (by rw [h.n]; omega) h1 (.inr h.gone.1) (by rw [h.chan]; exact hk) h.gone.2, ?_⟩
    refine ⟨h.n, ⟨rest, by rw [SrvSys.upd_same], by simp at h2; omega⟩, ?_, ?_, ?_, h.prod⟩
    · rw [SrvSys.upd_same]; exact h.watch
    · rw [SrvSys.upd_same]; simp [h.chan]
    · rw [SrvSys.upd_same]; exact h.gone

theorem exLeak_all (k : Nat) (hk : k ≤ 1000) {s : SrvSys} (h : ExLeak 0 s) : ∃ t, SrvSys.Steps (SrvSys.Step exLeaves exDrains) s t ∧ ExLeak k t := by
  induction k with
  | zero => exact ⟨s, .refl, h⟩
  | succ k ih =>
    obtain ⟨t, h1, h2⟩ := ih (by omega)
    obtain ⟨u, h3, h4⟩ := exLeak_next (by omega) h2
    exact ⟨u, .step h1 h3, h4⟩

theorem exLeak_rest {s : SrvSys} (h : ExLeak 1000 s) : s.AtRest exLeaves exDrains := by
  obtain ⟨rest, h1, h2⟩ := h.rest
  obtain ⟨h3, h4, h5, h6, h7, h8, h9⟩ : s.n = 1 ∧ _ ∧ _ ∧ _ ∧ _ ∧ _ ∧ _ := ⟨h.n, h.watch, h.chan, h.gone.1, h.gone.2, h.prod.1, h.prod.2⟩
  have h10 : rest ≠ [] := fun e => by rw [e] at h2; simp at h2
  intro t ht
  have zero : ∀ {i}, i < s.n → i = 0 := fun hi => by rw [h3] at hi; omega
  cases ht with
  | push hi _ _ hc => cases zero hi; rw [h5] at hc; simp [subchCap] at hc
  | check hi hp => cases zero hi; rw [h1] at hp; simp at hp; exact h10 hp
  | skip hi hp => cases zero hi; rw [h1] at hp; simp at hp; exact h10 hp
  | subscribe hi hp => cases zero hi; rw [h1] at hp; cases hp
  | ready hi hp => cases zero hi; rw [h1] at hp; cases hp
  | seen hi hp => cases zero hi; rw [h4] at hp; cases hp
  | unsubscribe hi _ hp => cases zero hi; rw [h1] at hp; cases hp
  | lock hi hp => cases zero hi; rw [h4] at hp; cases hp
  | close hi hp => cases zero hi; rw [h4] at hp; cases hp
  | unlock hi hp => cases zero hi; rw [h4] at hp; cases hp
  | read hi _ hg => cases zero hi; rw [h6] at hg; simp [exDrains] at hg
  | leave hi _ hg => cases zero hi; rw [h6] at hg; cases hg
  | rlock _ hp => rw [h9] at hp; cases hp
  | begin hp => rw [h8] at hp; cases hp
  | deliver _ hp => rw [h8] at hp; cases hp
  | finish hp => rw [h8] at hp; cases hp

/-- **C100** refuted, the goroutines: a client that leaves while more than a thousand stored blocks are still to be sent leaves both goroutines of its subscription
behind for ever, with its channel open. -/
theorem C100_leak_refuted (m : WMsg) : ∃ s, SrvSys.Steps (SrvSys.Step exLeaves exDrains) (SrvSys.start 1 (fun _ => List.replicate 1001 m) []) s ∧
    s.AtRest exLeaves exDrains ∧ ¬ AllDone 1 (fun _ => List.replicate 1001 m) [] exLeaves s := by
  have h1 : SrvSys.Steps (SrvSys.Step exLeaves exDrains) (SrvSys.start 1 (fun _ => List.replicate 1001 m) []) _ := .one (.leave (i := 0) (Nat.one_pos) rfl rfl)
  have h2 := h1.step (.seen (i := 0) Nat.one_pos rfl rfl)
  suffices key : ∀ t0, SrvSys.Steps (SrvSys.Step exLeaves exDrains) (SrvSys.start 1 (fun _ => List.replicate 1001 m) []) t0 → ExLeak 0 t0 →
      ∃ s, SrvSys.Steps (SrvSys.Step exLeaves exDrains) (SrvSys.start 1 (fun _ => List.replicate 1001 m) []) s ∧
        s.AtRest exLeaves exDrains ∧ ¬ AllDone 1 (fun _ => List.replicate 1001 m) [] exLeaves s from
    key _ h2 ⟨rfl, ⟨List.replicate 1001 m, rfl, by rw [List.length_replicate]⟩, rfl, rfl, ⟨rfl, rfl⟩, rfl, rfl⟩
  intro t0 h2 h0
  obtain ⟨t, h3, h4⟩ := exLeak_all 1000 (Nat.le_refl _) h0
  refine ⟨t, h2.trans h3, exLeak_rest h4, fun h => ?_⟩
  have := (h.left 0 Nat.one_pos rfl).2.1
  rw [h4.watch] at this
  cases this

/-- Client 0 has subscribed and nothing more, and `k` messages are on its channel; client 1 is ready and has read everything. -/
structure ExStall (k : Nat) (s : SrvSys) : Prop where
  n : s.n = 2
  init0 : (s.stream 0).init = .subscribed
  watch0 : (s.stream 0).watch = .idle
  chan0 : (s.stream 0).chan.length = k
  open0 : (s.stream 0).chanOpen = true
  gone0 : (s.stream 0).gone = false
  sub0 : (s.stream 0).sub = true
  init1 : (s.stream 1).init = .done
  watch1 : (s.stream 1).watch = .idle
  chan1 : (s.stream 1).chan = []
  open1 : (s.stream 1).chanOpen = true
  gone1 : (s.stream 1).gone = false
  sub1 : (s.stream 1).sub = true
  prod : s.prod = .idle
  todo : s.todo.length + k = 1002

theorem exStall_next {k : Nat} (hk : k < 1000) {s : SrvSys} (h : ExStall k s) : ∃ t, SrvSys.Steps (SrvSys.Step exLeaves exDrains) s t ∧ ExStall (k + 1) t := by
  cases ht : s.todo with
  | nil => have := h.todo; rw [ht] at this; simp at this; omega
  | cons m rest =>
    have hlen : rest.length + (k + 1) = 1002 := by have := h.todo; rw [ht] at this; simp at this; omega
    have two : ∀ {P : Nat → Prop}, P 0 → P 1 → ∀ j, j < s.n → P j := by
      intro P h0 h1 j hj
      rw [h.n] at hj
      rcases (by omega : j = 0 ∨ j = 1) with rfl | rfl
      · exact h0
      · exact h1
    have s1 : SrvSys.Steps (SrvSys.Step exLeaves exDrains) s _ := .one (.rlock h.prod ht
      (two (P := fun j => (s.stream j).watch.excludes = false) (by simp [h.watch0]; rfl) (by simp [h.watch1]; rfl)))
    have s2 := s1.step (.begin rfl)
    have s3 := s2.step (.deliver (i := 0) (by rw [h.n]; omega) rfl h.sub0 (by simp only [h.chan0]; exact hk) h.open0)
    have s4 := s3.step (.deliver (i := 1) (by simp only [SrvSys.upd, h.n]; omega) rfl
      (by rw [SrvSys.upd_other _ _ (by omega)]; exact h.sub1) (by rw [SrvSys.upd_other _ _ (by omega)]; simp [h.chan1, subchCap])
      (by rw [SrvSys.upd_other _ _ (by omega)]; exact h.open1))
    have s5 := s4.step (.read (i := 1) (m := m) (rest := []) (by simp only [SrvSys.upd, h.n]; omega)
      (by rw [SrvSys.upd_same, SrvSys.upd_other _ _ (by omega)]; simp [h.chan1])
      (.inl (by rw [SrvSys.upd_same, SrvSys.upd_other _ _ (by omega)]; exact h.gone1)))
    have s6 := s5.step (.finish rfl (two (P := fun j => _ = false)
      (by rw [SrvSys.upd_other _ _ (by omega), SrvSys.upd_other _ _ (by omega), SrvSys.upd_same])
      (by rw [SrvSys.upd_same, SrvSys.upd_same])))
    refine ⟨_, s6, ?_⟩
    constructor
    case n => exact h.n
    case prod => rfl
    case todo => exact hlen
    case init0 => simp [SrvSys.upd, h.init0]
    case watch0 => simp [SrvSys.upd, h.watch0]
    case chan0 => simp [SrvSys.upd, h.chan0]
    case open0 => simp [SrvSys.upd, h.open0]
    case gone0 => simp [SrvSys.upd, h.gone0]
    case sub0 => simp [SrvSys.upd, h.sub0]
    case init1 => simp [SrvSys.upd, h.init1]
    case watch1 => simp [SrvSys.upd, h.watch1]
    case chan1 => simp [SrvSys.upd]
    case open1 => simp [SrvSys.upd, h.open1]
    case gone1 => simp [SrvSys.upd, h.gone1]
    case sub1 => simp [SrvSys.upd, h.sub1]

theorem exStall_all (k : Nat) (hk : k ≤ 1000) {s : SrvSys} (h : ExStall 0 s) : ∃ t, SrvSys.Steps (SrvSys.Step exLeaves exDrains) s t ∧ ExStall k t := by
  induction k with
  | zero => exact ⟨s, .refl, h⟩
  | succ k ih =>
    obtain ⟨t, h1, h2⟩ := ih (by omega)
    obtain ⟨u, h3, h4⟩ := exStall_next (by omega) h2
    exact ⟨u, h1.trans h3, h4⟩

/-- Client 0 has left, its channel is full, the producer waits to send to it. -/
structure ExStalled (s : SrvSys) : Prop where
  n : s.n = 2
  init0 : (s.stream 0).init = .subscribed
  watch0 : (s.stream 0).watch = .waiting
  chan0 : (s.stream 0).chan.length = 1000
  gone0 : (s.stream 0).gone = true
  due0 : (s.stream 0).due = true
  init1 : (s.stream 1).init = .done
  watch1 : (s.stream 1).watch = .idle
  chan1 : (s.stream 1).chan = []
  gone1 : (s.stream 1).gone = false
  due1 : (s.stream 1).due = false
  prod : ∃ m, s.prod = .sending m
  todo : s.todo.length = 1

theorem exStalled_rest {s : SrvSys} (h : ExStalled s) : s.AtRest exLeaves exDrains := by
  intro t ht
  obtain ⟨m, hm⟩ := h.prod
  have two : ∀ {i}, i < s.n → i = 0 ∨ i = 1 := fun hi => by rw [h.n] at hi; omega
  cases ht with
  | push hi hp => rcases two hi with rfl | rfl <;> simp [h.init0, h.init1] at hp
  | check hi hp => rcases two hi with rfl | rfl <;> simp [h.init0, h.init1] at hp
  | skip hi hp => rcases two hi with rfl | rfl <;> simp [h.init0, h.init1] at hp
  | subscribe hi hp => rcases two hi with rfl | rfl <;> simp [h.init0, h.init1] at hp
  | ready hi hp hc =>
    rcases two hi with rfl | rfl
    · rw [h.chan0] at hc; simp [subchCap] at hc
    · simp [h.init1] at hp
  | seen hi hp hg =>
    rcases two hi with rfl | rfl
    · simp [h.watch0] at hp
    · simp [h.gone1] at hg
  | unsubscribe hi hp hd =>
    rcases two hi with rfl | rfl
    · simp [h.init0] at hd
    · simp [h.watch1] at hp
  | lock hi hp => rcases two hi with rfl | rfl <;> simp [h.watch0, h.watch1] at hp
  | close hi hp => rcases two hi with rfl | rfl <;> simp [h.watch0, h.watch1] at hp
  | unlock hi hp => rcases two hi with rfl | rfl <;> simp [h.watch0, h.watch1] at hp
  | read hi hc hg =>
    rcases two hi with rfl | rfl
    · simp [h.gone0, exDrains] at hg
    · simp [h.chan1] at hc
  | leave hi hl hg =>
    rcases two hi with rfl | rfl
    · simp [h.gone0] at hg
    · simp [exLeaves] at hl
  | rlock hp => rw [hm] at hp; cases hp
  | begin hp => rw [hm] at hp; cases hp
  | deliver hi _ hd hc =>
    rcases two hi with rfl | rfl
    · rw [h.chan0] at hc; simp [subchCap] at hc
    · simp [h.due1] at hd
  | finish _ hd => have := hd 0 (by rw [h.n]; omega); rw [h.due0] at this; cases this

theorem exStall_end {s : SrvSys} (h : ExStall 1000 s) : ∃ t, SrvSys.Steps (SrvSys.Step exLeaves exDrains) s t ∧ ExStalled t := by
  cases ht : s.todo with
  | nil => have := h.todo; rw [ht] at this; simp at this
  | cons m rest =>
    have hlen : rest.length = 1 := by have := h.todo; rw [ht] at this; simp at this; omega
    have two : ∀ {P : Nat → Prop}, P 0 → P 1 → ∀ j, j < s.n → P j := by
      intro P h0 h1 j hj
      rw [h.n] at hj
      rcases (by omega : j = 0 ∨ j = 1) with rfl | rfl
      · exact h0
      · exact h1
    have s1 : SrvSys.Steps (SrvSys.Step exLeaves exDrains) s _ := .one (.rlock h.prod ht
      (two (P := fun j => (s.stream j).watch.excludes = false) (by simp [h.watch0]; rfl) (by simp [h.watch1]; rfl)))
    have s2 := s1.step (.begin rfl)
    have s3 := s2.step (.deliver (i := 1) (by simp only [h.n]; omega) rfl h.sub1 (by simp only [h.chan1]; simp [subchCap]) h.open1)
    have s4 := s3.step (.read (i := 1) (m := m) (rest := []) (by simp only [SrvSys.upd, h.n]; omega)
      (by rw [SrvSys.upd_same]; simp [h.chan1]) (.inl (by rw [SrvSys.upd_same]; exact h.gone1)))
    have s5 := s4.step (.leave (i := 0) (by simp only [SrvSys.upd, h.n]; omega) rfl (by simp [SrvSys.upd, h.gone0]))
    have s6 := s5.step (.seen (i := 0) (by simp only [SrvSys.upd, h.n]; omega) (by simp [SrvSys.upd, h.watch0]) (by simp [SrvSys.upd]))
    refine ⟨_, s6, ?_⟩
    constructor
    case n => exact h.n
    case prod => exact ⟨m, rfl⟩
    case todo => exact hlen
    case init0 => simp [SrvSys.upd, h.init0]
    case watch0 => simp [SrvSys.upd]
    case chan0 => simp [SrvSys.upd, h.chan0]
    case gone0 => simp [SrvSys.upd]
    case due0 => simp [SrvSys.upd, h.sub0]
    case init1 => simp [SrvSys.upd, h.init1]
    case watch1 => simp [SrvSys.upd, h.watch1]
    case chan1 => simp [SrvSys.upd]
    case gone1 => simp [SrvSys.upd, h.gone1]
    case due1 => simp [SrvSys.upd]

/-- Both clients subscribe; the second is told that it is ready and reads that. -/
theorem exStall_start (msgs : List WMsg) (h : msgs.length = 1002) :
    ∃ t, SrvSys.Steps (SrvSys.Step exLeaves exDrains) (SrvSys.start 2 (fun _ => []) msgs) t ∧ ExStall 0 t := by
  have s1 : SrvSys.Steps (SrvSys.Step exLeaves exDrains) (SrvSys.start 2 (fun _ => []) msgs) _ := .one (.check (i := 0) Nat.two_pos rfl rfl)
  have s2 := s1.step (.subscribe (i := 0) Nat.two_pos (by simp [SrvSys.upd]))
  have s3 := s2.step (.check (i := 1) Nat.one_lt_two (by simp [SrvSys.upd, SrvSys.start]) (by simp [SrvSys.upd, SrvSys.start]))
  have s4 := s3.step (.subscribe (i := 1) Nat.one_lt_two (by simp [SrvSys.upd]))
  have s5 := s4.step (.ready (i := 1) Nat.one_lt_two (by simp [SrvSys.upd]) (by simp [SrvSys.upd, SrvSys.start, subchCap]) (by simp [SrvSys.upd, SrvSys.start]))
  have s6 := s5.step (.read (i := 1) (m := .ready) (rest := []) Nat.one_lt_two (by simp [SrvSys.upd, SrvSys.start]) (.inl (by simp [SrvSys.upd, SrvSys.start])))
  refine ⟨_, s6, ?_⟩
  constructor <;> simp [SrvSys.upd, SrvSys.start, h]

/-- **C100** refuted, the producer: a client whose channel fills up before the message `ready` is on it, and which leaves then, keeps the producer in `feed.Send` for ever,
and another client, which stays and reads, never gets the messages after that. -/
theorem C100_stall_refuted (msgs : List WMsg) (h : msgs.length = 1002) :
    ∃ s, SrvSys.Steps (SrvSys.Step exLeaves exDrains) (SrvSys.start 2 (fun _ => []) msgs) s ∧ s.AtRest exLeaves exDrains ∧ s.todo ≠ [] ∧ (s.stream 1).gone = false ∧
      (s.stream 1).got.length < msgs.length + 1 ∧ ¬ AllDone 2 (fun _ => []) msgs exLeaves s := by
  obtain ⟨t1, h1, h2⟩ := exStall_start msgs h
  obtain ⟨t2, h3, h4⟩ := exStall_all 1000 (Nat.le_refl _) h2
  obtain ⟨t3, h5, h6⟩ := exStall_end h4
  have hs := (h1.trans h3).trans h5
  have ht : t3.todo ≠ [] := fun e => by have := h6.todo; rw [e] at this; simp at this
  refine ⟨t3, hs, exStalled_rest h6, ht, h6.gone1, ?_, fun h => ht h.producer.1⟩
  have hI := srv_steps hs
  have hit := (hI.ok 1 (by omega)).items
  unfold SrvItems at hit
  rw [h6.init1] at hit
  have hm := congrArg List.length hI.msgs
  have htl := h6.todo
  simp only [List.length_append] at hm
  rcases hit with ⟨_, _, hg, _⟩ | ⟨a, b, e, hl⟩
  · rw [h6.gone1] at hg; cases hg
  · have h7 := congrArg List.length e
    have h8 := hl.pre.length_le
    simp only [List.length_append, List.length_cons, List.length_nil, List.length_drop] at h7 h8
    omega

/-! ## Concrete executions -/

theorem srv_over {s : SrvSys} (hn : s.n = 1) (h1 : (s.stream 0).init = .done) (h2 : (s.stream 0).watch = .ended) (h3 : (s.stream 0).chan = [])
    (h4 : (s.stream 0).gone = true) (h5 : s.todo = []) (h6 : s.prod = .idle) : s.AtRest exLeaves exDrains := by
  intro t ht
  have zero : ∀ {i}, i < s.n → i = 0 := fun hi => by rw [hn] at hi; omega
  cases ht with
  | push hi hp => cases zero hi; rw [h1] at hp; cases hp
  | check hi hp => cases zero hi; rw [h1] at hp; cases hp
  | skip hi hp => cases zero hi; rw [h1] at hp; cases hp
  | subscribe hi hp => cases zero hi; rw [h1] at hp; cases hp
  | ready hi hp => cases zero hi; rw [h1] at hp; cases hp
  | seen hi hp => cases zero hi; rw [h2] at hp; cases hp
  | unsubscribe hi hp => cases zero hi; rw [h2] at hp; cases hp
  | lock hi hp => cases zero hi; rw [h2] at hp; cases hp
  | close hi hp => cases zero hi; rw [h2] at hp; cases hp
  | unlock hi hp => cases zero hi; rw [h2] at hp; cases hp
  | read hi hc => cases zero hi; rw [h3] at hc; cases hc
  | leave hi _ hg => cases zero hi; rw [h4] at hg; cases hg
  | rlock _ hp => rw [h5] at hp; cases hp
  | begin hp => rw [h6] at hp; cases hp
  | deliver _ hp => rw [h6] at hp; cases hp
  | finish hp => rw [h6] at hp; cases hp

/-- The state of a server with one subscription. -/
def SrvSys.IsOne (s : SrvSys) (x : SrvStream) (todo : List WMsg) (prod : SrvProd) : Prop := s.n = 1 ∧ s.stream 0 = x ∧ s.todo = todo ∧ s.prod = prod

theorem one_upd {x : SrvStream} {todo : List WMsg} {prod : SrvProd} {s : SrvSys} (h : s.IsOne x todo prod) (y : SrvStream)
    (hs : SrvSys.Step exLeaves exDrains s (s.upd 0 y)) (hg : y.gone = x.gone ∨ x.init = .done) :
    ∃ t, LeavesReady (SrvSys.Step exLeaves exDrains) s t ∧ t.IsOne y todo prod := by
  refine ⟨_, ⟨hs, fun i h1 h2 => ?_⟩, h.1, by rw [SrvSys.upd_same], h.2.2.1, h.2.2.2⟩
  by_cases e : i = 0
  · subst e
    rw [SrvSys.upd_same] at h2
    rw [h.2.1] at h1 ⊢
    rcases hg with hg | hg
    · rw [hg, h1] at h2; cases h2
    · exact hg
  · rw [SrvSys.upd_other s _ e, h1] at h2; cases h2

theorem one_prod {x : SrvStream} {todo todo' : List WMsg} {prod prod' : SrvProd} {s : SrvSys} (h : s.IsOne x todo prod) (y : SrvStream) (t : SrvSys)
    (hs : SrvSys.Step exLeaves exDrains s t) (hg : ∀ i, (t.stream i).gone = (s.stream i).gone) (ht : t.n = 1 ∧ t.stream 0 = y ∧ t.todo = todo' ∧ t.prod = prod') :
    ∃ t, LeavesReady (SrvSys.Step exLeaves exDrains) s t ∧ t.IsOne y todo' prod' :=
  ⟨t, ⟨hs, fun i h1 h2 => by rw [hg i, h1] at h2; cases h2⟩, ht⟩

/-- One client with a stored block, a message of the producer, and the client leaves after that: it has got the stored block, `ready` and the message, and at the end its
goroutines have ended. The hypotheses of C98, C99 and C100 are met. -/
example (b m : WMsg) : ∃ s t u, SrvSys.Steps (LeavesReady (SrvSys.Step exLeaves exDrains)) (SrvSys.start 1 (fun _ => [b]) [m]) s ∧
    LeavesReady (SrvSys.Step exLeaves exDrains) s t ∧ (s.stream 0).sub = false ∧ (t.stream 0).sub = true ∧
    SrvSys.Steps (LeavesReady (SrvSys.Step exLeaves exDrains)) t u ∧ u.AtRest exLeaves exDrains ∧ (u.stream 0).got = [b, .ready, m] ∧ (u.stream 0).chanOpen = false := by
  have h0 : (SrvSys.start 1 (fun _ => [b]) [m]).IsOne ⟨.stored [b], .idle, [], true, false, false, false, [], none⟩ [m] .idle := ⟨rfl, rfl, rfl, rfl⟩
  obtain ⟨t1, r1, h1⟩ := one_upd h0 ⟨.stored [], .idle, [b], true, false, false, false, [], none⟩
    (.push (i := 0) (m := b) (rest := []) Nat.one_pos rfl (.inl (by simp [SrvSys.start])) (by simp [SrvSys.start, subchCap]) rfl) (.inl rfl)
  obtain ⟨n1, e1, td1, p1⟩ := h1
  obtain ⟨t2, r2, h2⟩ := one_upd ⟨n1, e1, td1, p1⟩ ⟨.stored [], .idle, [], true, false, false, false, [b], none⟩
    (by have := SrvSys.Step.read (leaves := exLeaves) (drains := exDrains) (s := t1) (i := 0) (m := b) (rest := []) (by omega) (by rw [e1]) (.inl (by rw [e1])); rwa [e1] at this) (.inl rfl)
  obtain ⟨n2, e2, td2, p2⟩ := h2
  obtain ⟨t3, r3, h3⟩ := one_upd ⟨n2, e2, td2, p2⟩ ⟨.checked, .idle, [], true, false, false, false, [b], none⟩
    (by have := SrvSys.Step.check (leaves := exLeaves) (drains := exDrains) (s := t2) (i := 0) (by omega) (by rw [e2]) (by rw [e2]); rwa [e2] at this) (.inl rfl)
  obtain ⟨n3, e3, td3, p3⟩ := h3
  obtain ⟨t4, r4, h4⟩ := one_upd ⟨n3, e3, td3, p3⟩ ⟨.subscribed, .idle, [], true, false, true, false, [b], some t3.sent.length⟩
    (by have := SrvSys.Step.subscribe (leaves := exLeaves) (drains := exDrains) (s := t3) (i := 0) (by omega) (by rw [e3]); rwa [e3] at this) (.inl rfl)
  obtain ⟨n4, e4, td4, p4⟩ := h4
  obtain ⟨t5, r5, h5⟩ := one_upd ⟨n4, e4, td4, p4⟩ ⟨.done, .idle, [.ready], true, false, true, false, [b], some t3.sent.length⟩
    (by have := SrvSys.Step.ready (leaves := exLeaves) (drains := exDrains) (s := t4) (i := 0) (by omega) (by rw [e4]) (by rw [e4]; simp [subchCap]) (by rw [e4]); rwa [e4] at this) (.inl rfl)
  obtain ⟨n5, e5, td5, p5⟩ := h5
  obtain ⟨t6, r6, h6⟩ := one_upd ⟨n5, e5, td5, p5⟩ ⟨.done, .idle, [], true, false, true, false, [b, .ready], some t3.sent.length⟩
    (by have := SrvSys.Step.read (leaves := exLeaves) (drains := exDrains) (s := t5) (i := 0) (m := .ready) (rest := []) (by omega) (by rw [e5]) (.inl (by rw [e5])); rwa [e5] at this) (.inl rfl)
  obtain ⟨n6, e6, td6, p6⟩ := h6
  obtain ⟨t7, r7, n7, e7, td7, p7⟩ := one_prod (todo' := []) (prod' := .holding m) ⟨n6, e6, td6, p6⟩ _ _
    (.rlock p6 td6 (fun j hj => by cases (by omega : j = 0); rw [e6]; rfl)) (fun _ => rfl) ⟨n6, e6, rfl, rfl⟩
  obtain ⟨t8, r8, n8, e8, td8, p8⟩ := one_prod (todo' := []) (prod' := .sending m) ⟨n7, e7, td7, p7⟩ ⟨.done, .idle, [], true, false, true, true, [b, .ready], some t3.sent.length⟩ _
    (.begin p7) (fun _ => rfl) ⟨n7, by simp only [e7], td7, rfl⟩
  obtain ⟨t9, r9, h9⟩ := one_upd ⟨n8, e8, td8, p8⟩ ⟨.done, .idle, [m], true, false, true, false, [b, .ready], some t3.sent.length⟩
    (by have := SrvSys.Step.deliver (leaves := exLeaves) (drains := exDrains) (s := t8) (i := 0) (by omega) p8 (by rw [e8]) (by rw [e8]; simp [subchCap]) (by rw [e8]); rwa [e8] at this) (.inl rfl)
  obtain ⟨n9, e9, td9, p9⟩ := h9
  obtain ⟨ta, ra, ha⟩ := one_upd ⟨n9, e9, td9, p9⟩ ⟨.done, .idle, [], true, false, true, false, [b, .ready, m], some t3.sent.length⟩
    (by have := SrvSys.Step.read (leaves := exLeaves) (drains := exDrains) (s := t9) (i := 0) (m := m) (rest := []) (by omega) (by rw [e9]) (.inl (by rw [e9])); rwa [e9] at this) (.inl rfl)
  obtain ⟨na, ea, tda, pa⟩ := ha
  obtain ⟨tb, rb, nb, eb, tdb, pb⟩ := one_prod (todo' := []) (prod' := .idle) ⟨na, ea, tda, pa⟩ _ _
    (.finish pa (fun j hj => by cases (by omega : j = 0); rw [ea])) (fun _ => rfl) ⟨na, ea, tda, rfl⟩
  obtain ⟨tc, rc, hc⟩ := one_upd ⟨nb, eb, tdb, pb⟩ ⟨.done, .idle, [], true, true, true, false, [b, .ready, m], some t3.sent.length⟩
    (by have := SrvSys.Step.leave (leaves := exLeaves) (drains := exDrains) (s := tb) (i := 0) (by omega) rfl (by rw [eb]); rwa [eb] at this) (.inr rfl)
  obtain ⟨nc, ec, tdc, pc⟩ := hc
  obtain ⟨td, rd, hd⟩ := one_upd ⟨nc, ec, tdc, pc⟩ ⟨.done, .waiting, [], true, true, true, false, [b, .ready, m], some t3.sent.length⟩
    (by have := SrvSys.Step.seen (leaves := exLeaves) (drains := exDrains) (s := tc) (i := 0) (by omega) (by rw [ec]) (by rw [ec]); rwa [ec] at this) (.inl rfl)
  obtain ⟨nd, ed, tdd, pd⟩ := hd
  obtain ⟨te, re, he⟩ := one_upd ⟨nd, ed, tdd, pd⟩ ⟨.done, .locking, [], true, true, false, false, [b, .ready, m], some t3.sent.length⟩
    (by have := SrvSys.Step.unsubscribe (leaves := exLeaves) (drains := exDrains) (s := td) (i := 0) (by omega) (by rw [ed]) (by rw [ed]); rwa [ed] at this) (.inl rfl)
  obtain ⟨ne, ee, tde, pe⟩ := he
  obtain ⟨tf, rf, hf⟩ := one_upd ⟨ne, ee, tde, pe⟩ ⟨.done, .locked, [], true, true, false, false, [b, .ready, m], some t3.sent.length⟩
    (by have := SrvSys.Step.lock (leaves := exLeaves) (drains := exDrains) (s := te) (i := 0) (by omega) (by rw [ee]) pe (fun j hj => by cases (by omega : j = 0); rw [ee]; rfl); rwa [ee] at this) (.inl rfl)
  obtain ⟨nf, ef, tdf, pf⟩ := hf
  obtain ⟨tg, rg, hg⟩ := one_upd ⟨nf, ef, tdf, pf⟩ ⟨.done, .closed, [], false, true, false, false, [b, .ready, m], some t3.sent.length⟩
    (by have := SrvSys.Step.close (leaves := exLeaves) (drains := exDrains) (s := tf) (i := 0) (by omega) (by rw [ef]) (by rw [ef]); rwa [ef] at this) (.inl rfl)
  obtain ⟨ng, eg, tdg, pg⟩ := hg
  obtain ⟨th, rh, hh⟩ := one_upd ⟨ng, eg, tdg, pg⟩ ⟨.done, .ended, [], false, true, false, false, [b, .ready, m], some t3.sent.length⟩
    (by have := SrvSys.Step.unlock (leaves := exLeaves) (drains := exDrains) (s := tg) (i := 0) (by omega) (by rw [eg]); rwa [eg] at this) (.inl rfl)
  obtain ⟨nh, eh, tdh, ph⟩ := hh
  refine ⟨t3, t4, th, ((SrvSys.Steps.one r1).step r2).step r3, r4, by rw [e3], by rw [e4],
    ((((((((((((((SrvSys.Steps.one r5).step r6).step r7).step r8).step r9).step ra).step rb).step rc).step rd).step re).step rf).step rg).step rh)), ?_, by rw [eh], by rw [eh]⟩
  exact srv_over nh (by rw [eh]) (by rw [eh]) (by rw [eh]) (by rw [eh]) tdh ph

end Verif
