import Verif.Model.Watch
import Verif.Props.Feed
/-! C73 and C74: the watchers of `NewKafkaProducer`. -/
namespace Verif
open Spec

/-- What is known in every state: `hist` lists the hashes added to the cache, `read i` the keys read from partition `i`. -/
structure WatchInv (id : Bytes) (A : Nat → Bytes → Prop) (s0 s : Watching) (hist : List Hash) (read : Nat → List Bytes) : Prop where
  n : s.n = s0.n
  cache : s.cache = (LRU.new 4096).addAll hist
  split : ∀ i, i < s.n → ∃ arrived, (∀ k ∈ arrived, A i k) ∧ (s0.part i).todo ++ arrived = read i ++ (s.part i).todo
  due : ∀ i, i < s.n → (s.part i).due = (s0.part i).todo.length - (read i).length
  done : ∀ i, i < s.n → (s.part i).done = true → (s0.part i).done = true ∨ (s0.part i).todo <+: read i
  left : ∀ i, i < s.n → (s0.part i).done = true ∨ (s0.part i).todo ≠ [] → (s.part i).done = true ∨ (s.part i).todo ≠ []
  headers : ∀ i, i < s.n → ∀ k ∈ read i, ∀ h, watchKey id k = .ok (.hash h) →
    h ∈ hist ∨ (s.part i).offer = .hash h ∨ s.hold = .hash h
  genuine : ∀ h ∈ hist, ∃ i, i < s.n ∧ ∃ k ∈ read i, watchKey id k = .ok (.hash h)
  offered : ∀ i, i < s.n → ∀ h, (s.part i).offer = .hash h → ∃ k ∈ read i, watchKey id k = .ok (.hash h)
  held : ∀ h, s.hold = .hash h → ∃ i, i < s.n ∧ ∃ k ∈ read i, watchKey id k = .ok (.hash h)

theorem upd_part (s : Watching) (i : Nat) (p : WatchPart) (j : Nat) : (s.upd i p).part j = if j = i then p else s.part j := rfl

theorem watch_step {id : Bytes} {A : Nat → Bytes → Prop} {s0 s t : Watching} {hist : List Hash} {read : Nat → List Bytes}
    (h : WatchInv id A s0 s hist read) (hs : Watching.Step id A s t) : ∃ hist' read', WatchInv id A s0 t hist' read' := by
  cases hs with
  | @arrive i k hi hA =>
    refine ⟨hist, read, h.n, h.cache, ?_, ?_, ?_, ?_, ?_, h.genuine, ?_, h.held⟩
    · intro j hj
      obtain ⟨ar, ha, he⟩ := h.split j hj
      rw [upd_part]
      split
      · rename_i e; subst e
        exact ⟨ar ++ [k], by simpa using fun x hx => hx.elim (ha x) (fun e => e ▸ hA), by rw [← List.append_assoc, he]; simp⟩
      · exact ⟨ar, ha, he⟩
    · intro j hj
      rw [upd_part]
      split
      · rename_i e; subst e; exact h.due j hj
      · exact h.due j hj
    · intro j hj hd
      rw [upd_part] at hd
      split at hd
      · rename_i e; subst e; exact h.done j hj hd
      · exact h.done j hj hd
    · intro j hj h0
      rw [upd_part]
      split
      · exact .inr (by simp)
      · exact h.left j hj h0
    · intro j hj k' hk' hh hw
      have := h.headers j hj k' hk' hh hw
      rw [upd_part]
      split
      · rename_i e; subst e; exact this
      · exact this
    · intro j hj hh ho
      rw [upd_part] at ho
      split at ho
      · rename_i e; subst e; exact h.offered j hj hh ho
      · exact h.offered j hj hh ho
  | work hw =>
    cases hw with
    | @read i k ks ev stale hi htodo hoff hk hst =>
      refine ⟨hist, fun j => if j = i then read i ++ [k] else read j, h.n, h.cache, ?_, ?_, ?_, ?_, ?_, ?_, ?_, ?_⟩
      · intro j hj
        obtain ⟨ar, ha, he⟩ := h.split j hj
        rw [upd_part]
        by_cases e : j = i
        · subst e; simp only [if_true]; exact ⟨ar, ha, by rw [he, htodo]; simp⟩
        · simp only [e, if_false]; exact ⟨ar, ha, he⟩
      · intro j hj
        have := h.due j hj
        rw [upd_part]
        by_cases e : j = i
        · subst e; simp only [if_true, List.length_append, List.length_singleton]; omega
        · simp only [e, if_false]; exact this
      · intro j hj hd
        rw [upd_part] at hd
        by_cases e : j = i
        · subst e
          simp only [if_true, Bool.or_eq_true] at hd ⊢
          rcases hd with (hd | hd) | hd
          · rcases h.done j hj hd with h1 | h1
            · exact .inl h1
            · exact .inr (h1.trans (List.prefix_append _ _))
          · obtain ⟨ar, ha, he⟩ := h.split j hj
            have hks : ks = [] := by simpa using hd
            subst hks
            rw [htodo] at he
            exact .inr ⟨ar, he⟩
          · obtain ⟨ar, ha, he⟩ := h.split j hj
            have hl := h.due j hj
            have := hst hd
            rw [htodo, List.append_cons] at he
            exact .inr (List.prefix_of_prefix_length_le ⟨ar, rfl⟩ ⟨ks, he.symm⟩ (by simp; omega))
        · simp only [e, if_false] at hd ⊢; exact h.done j hj hd
      · intro j hj h0
        rw [upd_part]
        by_cases e : j = i
        · simp only [e, if_true]
          cases ks with
          | nil => exact .inl (by simp)
          | cons x xs => exact .inr (by simp)
        · simp only [e, if_false]; exact h.left j hj h0
      · intro j hj k' hk' hh hw
        rw [upd_part]
        by_cases e : j = i
        · subst e
          simp only [if_true] at hk' ⊢
          rcases List.mem_append.mp hk' with hk' | hk'
          · rcases h.headers j hj k' hk' hh hw with h1 | h1 | h1
            · exact .inl h1
            · rw [hoff] at h1; simp at h1
            · exact .inr (.inr h1)
          · simp only [List.mem_singleton] at hk'; subst hk'
            rw [hk] at hw
            simp only [Except.ok.injEq] at hw
            exact .inr (.inl hw)
        · simp only [e, if_false] at hk' ⊢; exact h.headers j hj k' hk' hh hw
      · intro x hx
        obtain ⟨j, hj, k', hk', hw⟩ := h.genuine x hx
        refine ⟨j, hj, k', ?_, hw⟩
        by_cases e : j = i
        · subst e; simp [hk']
        · simp [e, hk']
      · intro j hj x hx
        rw [upd_part] at hx
        by_cases e : j = i
        · subst e
          simp only [if_true] at hx ⊢
          subst hx
          exact ⟨k, by simp, hk⟩
        · simp only [e, if_false] at hx ⊢; exact h.offered j hj x hx
      · intro x hx
        obtain ⟨j, hj, k', hk', hw⟩ := h.held x hx
        refine ⟨j, hj, k', ?_, hw⟩
        by_cases e : j = i
        · subst e; simp [hk']
        · simp [e, hk']
    | @take i hi hoff hhold =>
      refine ⟨hist, read, h.n, h.cache, ?_, ?_, ?_, ?_, ?_, h.genuine, ?_, ?_⟩
      · intro j hj
        obtain ⟨ar, ha, he⟩ := h.split j hj
        rw [show (({ s.upd i _ with hold := _ } : Watching).part j) = _ from upd_part s i _ j]
        by_cases e : j = i
        · subst e; simp only [if_true]; exact ⟨ar, ha, he⟩
        · simp only [e, if_false]; exact ⟨ar, ha, he⟩
      · intro j hj
        have := h.due j hj
        rw [show (({ s.upd i _ with hold := _ } : Watching).part j) = _ from upd_part s i _ j]
        by_cases e : j = i
        · subst e; simp only [if_true]; exact this
        · simp only [e, if_false]; exact this
      · intro j hj hd
        rw [show (({ s.upd i _ with hold := _ } : Watching).part j) = _ from upd_part s i _ j] at hd
        by_cases e : j = i
        · subst e; simp only [if_true] at hd; exact h.done j hj hd
        · simp only [e, if_false] at hd; exact h.done j hj hd
      · intro j hj h0
        rw [show (({ s.upd i _ with hold := _ } : Watching).part j) = _ from upd_part s i _ j]
        by_cases e : j = i
        · subst e; simp only [if_true]; exact h.left j hj h0
        · simp only [e, if_false]; exact h.left j hj h0
      · intro j hj k' hk' hh hw
        rw [show (({ s.upd i _ with hold := _ } : Watching).part j) = _ from upd_part s i _ j]
        by_cases e : j = i
        · subst e
          simp only [if_true]
          rcases h.headers j hj k' hk' hh hw with h1 | h1 | h1
          · exact .inl h1
          · exact .inr (.inr h1)
          · rw [hhold] at h1; simp at h1
        · simp only [e, if_false]
          rcases h.headers j hj k' hk' hh hw with h1 | h1 | h1
          · exact .inl h1
          · exact .inr (.inl h1)
          · rw [hhold] at h1; simp at h1
      · intro j hj x hx
        rw [show (({ s.upd i _ with hold := _ } : Watching).part j) = _ from upd_part s i _ j] at hx
        by_cases e : j = i
        · subst e; simp at hx
        · simp only [e, if_false] at hx; exact h.offered j hj x hx
      · intro x hx
        obtain ⟨k, hk, hw⟩ := h.offered i hi x hx
        exact ⟨i, hi, k, hk, hw⟩
    | @add x hx =>
      refine ⟨hist ++ [x], read, h.n, ?_, h.split, h.due, h.done, h.left, ?_, ?_, h.offered, fun y hy => by simp at hy⟩
      · simp only [h.cache, LRU.addAll, List.foldl_append, List.foldl_cons, List.foldl_nil]
      · intro j hj k' hk' hh hw
        rcases h.headers j hj k' hk' hh hw with h1 | h1 | h1
        · exact .inl (by simp [h1])
        · exact .inr (.inl h1)
        · rw [hx] at h1
          simp only [WatchEv.hash.injEq] at h1
          exact .inl (by simp [h1])
      · intro y hy
        rcases List.mem_append.mp hy with hy | hy
        · exact h.genuine y hy
        · simp only [List.mem_singleton] at hy; subst hy; exact h.held y hx
    | @beat x hx =>
      refine ⟨hist, read, h.n, h.cache, h.split, h.due, h.done, h.left, ?_, h.genuine, h.offered, fun y hy => by simp at hy⟩
      intro j hj k' hk' hh hw
      rcases h.headers j hj k' hk' hh hw with h1 | h1 | h1
      · exact .inl h1
      · exact .inr (.inl h1)
      · rw [hx] at h1; simp at h1

/-- The partitions at the start: their logs, and whether asking for the newest offset succeeds. -/
def watchParts (logs : Nat → PLog) (known : Nat → Bool) (i : Nat) : WatchPart := watchPart (logs i) (known i)

theorem watchPart_offer (l : PLog) (b : Bool) : (watchPart l b).offer = .nothing := by unfold watchPart; split <;> rfl
theorem watchPart_due (l : PLog) (b : Bool) : (watchPart l b).due = (watchPart l b).todo.length := by unfold watchPart; split <;> simp

/-- The messages read on startup: the last hundred, or those that are kept if there are fewer. -/
theorem watchPart_todo (l : PLog) : (watchPart l true).todo = (l.msgs.drop (l.msgs.length - 100)).map Msg.key := by
  unfold watchPart
  rw [recent_eq]
  split
  · rename_i h
    have : l.msgs = [] := by
      simp only [Bool.true_eq_false, false_or, PLog.newest] at h
      exact List.eq_nil_of_length_eq_zero (by omega)
    simp [this]
  · rfl

theorem watchPart_done (l : PLog) (h : (watchPart l true).done = true) : (watchPart l true).todo = [] := by
  unfold watchPart at h ⊢
  split
  · rename_i h
    have : l.msgs = [] := by
      simp only [Bool.true_eq_false, false_or, PLog.newest] at h
      exact List.eq_nil_of_length_eq_zero (by omega)
    simp [this]
  · rename_i h'; rw [if_neg h'] at h; simp at h

theorem watch_reach {id : Bytes} {A : Nat → Bytes → Prop} {n : Nat} {logs : Nat → PLog} {known : Nat → Bool} {s : Watching}
    (hs : Watching.Steps id A (Watching.init n (watchParts logs known)) s) :
    ∃ hist read, WatchInv id A (Watching.init n (watchParts logs known)) s hist read := by
  induction hs with
  | refl =>
    refine ⟨[], fun _ => [], rfl, rfl, fun i _ => ⟨[], by simp, by simp⟩, fun i _ => watchPart_due _ _, fun i _ h => .inl h, fun i _ h => h, by simp, by simp, ?_, ?_⟩
    · intro i hi h ho
      rw [show ((Watching.init n (watchParts logs known)).part i).offer = _ from watchPart_offer _ _] at ho; simp at ho
    · intro h ho; simp [Watching.init] at ho
  | tail _ hst ih =>
    obtain ⟨hist, read, h⟩ := ih
    exact watch_step h hst

theorem addAll_new (hist : List Hash) : ((LRU.new 4096 : LRU Hash).addAll hist).items = (recents hist).take 4096 := by
  have := (addAll_recents (c := (LRU.new 4096 : LRU Hash)) (hist := []) (by decide) (by simp [LRU.new, recents]) hist).1
  simpa [LRU.new] using this

/-- The last hundred messages of a partition (or all of them). -/
def Startup (l : PLog) (k : Bytes) : Prop := ∃ m ∈ l.msgs.drop (l.msgs.length - 100), m.key = k

/-- **C73**, the part that holds: when the constructor has returned, every header among the last hundred messages of a partition is
in the cache, except the one its partition's goroutine is still offering and the one the receiver is still holding (unless the cache
is full). And the cache holds nothing but hashes of headers that were in the topic. -/
theorem C73_partial {id : Bytes} {A : Nat → Bytes → Prop} {n : Nat} {logs : Nat → PLog} {s : Watching}
    (hs : Watching.Steps id A (Watching.init n (watchParts logs fun _ => true)) s) (hr : s.Ready) :
    (∀ i, i < n → ∀ k, Startup (logs i) k → ∀ h, watchKey id k = .ok (.hash h) →
      s.cache.contains h = true ∨ (s.part i).offer = .hash h ∨ s.hold = .hash h ∨ s.cache.items.length = 4096) ∧
    (∀ h, s.cache.contains h = true → ∃ i, i < n ∧ ∃ k, (Startup (logs i) k ∨ A i k) ∧ watchKey id k = .ok (.hash h)) := by
  obtain ⟨hist, read, h⟩ := watch_reach hs
  have hn : s.n = n := h.n
  have hi : s.cache.items = (recents hist).take 4096 := by rw [h.cache]; exact addAll_new hist
  have hc : ∀ x, s.cache.contains x = true ↔ x ∈ s.cache.items := by
    intro x; simp [LRU.contains]
  have hst : ∀ i k, k ∈ (watchPart (logs i) true).todo ↔ Startup (logs i) k := by
    intro i k; rw [watchPart_todo]; exact List.mem_map
  have he : ∀ i, (Watching.init n (watchParts logs fun _ => true)).part i = watchPart (logs i) true := fun _ => rfl
  constructor
  · intro i hlt k hk x hw
    rw [← hst] at hk
    have hk' : k ∈ read i := by
      rcases h.done i (hn ▸ hlt) (hr i (hn ▸ hlt)) with h1 | h1
      · rw [he] at h1; rw [watchPart_done _ h1] at hk; simp at hk
      · rw [he] at h1; exact h1.subset hk
    rcases h.headers i (hn ▸ hlt) k hk' x hw with h1 | h1 | h1
    · by_cases hl : s.cache.items.length = 4096
      · exact .inr (.inr (.inr hl))
      · left
        rw [hc, hi]
        rw [hi, List.length_take] at hl
        rw [List.take_of_length_le (by omega)]
        exact mem_recents.mpr h1
    · exact .inr (.inl h1)
    · exact .inr (.inr (.inl h1))
  · intro x hx
    rw [hc, hi] at hx
    obtain ⟨i, hlt, k, hk, hw⟩ := h.genuine x (mem_recents.mp (List.mem_of_mem_take hx))
    refine ⟨i, hn ▸ hlt, k, ?_, hw⟩
    obtain ⟨ar, ha, hsp⟩ := h.split i hlt
    rw [he] at hsp
    have : k ∈ (watchPart (logs i) true).todo ++ ar := by rw [hsp]; simp [hk]
    rcases List.mem_append.mp this with h1 | h1
    · exact .inl ((hst i k).mp h1)
    · exact .inr (ha k h1)

/-- One partition with one header. -/
def exLogs : Nat → PLog := fun _ => ⟨0, [exHeader7]⟩

/-- **C73** refuted: with a single message, the constructor may return before the header is in the cache; the block is then sent
again. -/
theorem C73_refuted : ∃ (s : Watching) (k : Bytes) (h : Hash),
    Watching.Steps [] (fun _ _ => False) (Watching.init 1 (watchParts exLogs fun _ => true)) s ∧ s.Ready ∧
    Startup (exLogs 0) k ∧ watchKey [] k = .ok (.hash h) ∧ s.cache.contains h = false := by
  have hp : watchParts exLogs (fun _ => true) 0 = ⟨[exHeader7.key], 1, .nothing, false⟩ := by rfl
  have hk : watchKey [] exHeader7.key = .ok (.hash (exHash 1)) := by decide +kernel
  refine ⟨_, exHeader7.key, exHash 1, .tail .refl (.work (.read (i := 0) (k := exHeader7.key) (ks := []) (ev := .hash (exHash 1)) false (by decide) ?_ ?_ hk (by simp))), ?_, ?_, hk, ?_⟩
  · simp [Watching.init, hp]
  · simp [Watching.init, hp]
  · intro i hi
    have : i = 0 := by simp [Watching.upd, Watching.init] at hi; omega
    subst this
    simp [Watching.upd]
  · exact ⟨exHeader7, by decide +kernel, rfl⟩
  · rfl

/-! ## C74 -/

/-- **C74** refuted: a partition all of whose messages have expired (the newest offset is not 0, nothing can be read). No goroutine
can do anything, and the constructor waits until somebody writes to that partition. -/
theorem C74_refuted : ∃ (l : PLog) (id : Bytes), ¬ (Watching.init 1 (watchParts (fun _ => l) fun _ => true)).Ready ∧
    ∀ t, ¬ Watching.Work id (Watching.init 1 (watchParts (fun _ => l) fun _ => true)) t := by
  have hp : ∀ i, watchParts (fun _ => ⟨500, []⟩) (fun _ => true) i = ⟨[], 0, .nothing, false⟩ := fun _ => rfl
  refine ⟨⟨500, []⟩, [], ?_, ?_⟩
  · intro h
    have := h 0 (by decide)
    simp [Watching.init, hp] at this
  · intro t h
    cases h with
    | read _ _ h => simp [Watching.init, hp] at h
    | take _ h => simp [Watching.init, hp] at h
    | add h => simp [Watching.init] at h
    | beat h => simp [Watching.init] at h

/-- **C74**, the part that holds: if every partition is unused, does not answer, or has a message that can be read, and no key makes
the watcher panic, then a state in which no goroutine can go on is one in which the constructor has returned. -/
theorem C74_partial {id : Bytes} {A : Nat → Bytes → Prop} {n : Nat} {logs : Nat → PLog} {known : Nat → Bool}
    (hp : ∀ i, i < n → known i = false ∨ (logs i).newest = 0 ∨ (logs i).msgs ≠ [])
    (hk : ∀ i, i < n → ∀ k, (∃ m ∈ (logs i).msgs, m.key = k) ∨ A i k → ∃ ev, watchKey id k = .ok ev) {s : Watching}
    (hs : Watching.Steps id A (Watching.init n (watchParts logs known)) s) (hq : ∀ t, ¬ Watching.Work id s t) : s.Ready := by
  obtain ⟨hist, read, h⟩ := watch_reach hs
  have hn : s.n = n := h.n
  have he : ∀ i, (Watching.init n (watchParts logs known)).part i = watchPart (logs i) (known i) := fun _ => rfl
  intro i hi
  have hhold : s.hold = .nothing := by
    match hh : s.hold with
    | .nothing => rfl
    | .hash x => exact absurd (.add hh) (hq _)
    | .heartbeat x => exact absurd (.beat hh) (hq _)
  have hoff : (s.part i).offer = .nothing := Classical.byContradiction fun hne => hq _ (.take hi hne hhold)
  have hstart : (watchPart (logs i) (known i)).done = true ∨ (watchPart (logs i) (known i)).todo ≠ [] := by
    by_cases hc : known i = false ∨ (logs i).newest = 0
    · left; unfold watchPart; rw [if_pos hc]
    · right
      have hm : (logs i).msgs ≠ [] := by
        rcases hp i (hn ▸ hi) with h1 | h1 | h1
        · exact absurd (.inl h1) hc
        · exact absurd (.inr h1) hc
        · exact h1
      have hkn : known i = true := by simpa using (not_or.mp hc).1
      rw [hkn, watchPart_todo]
      intro h0
      have h2 : ((logs i).msgs.drop ((logs i).msgs.length - 100)).length = 0 := by simpa using congrArg List.length h0
      rw [List.length_drop] at h2
      have := List.length_pos_iff.mpr hm
      omega
  rcases h.left i hi hstart with h1 | h1
  · exact h1
  · exfalso
    match ht : (s.part i).todo with
    | [] => exact h1 ht
    | k :: ks =>
      obtain ⟨ar, ha, hsp⟩ := h.split i hi
      have hm : k ∈ (watchPart (logs i) (known i)).todo ++ ar := by
        rw [he] at hsp; rw [hsp, ht]; simp
      have hsub : k ∈ (watchPart (logs i) (known i)).todo → ∃ m ∈ (logs i).msgs, m.key = k := by
        unfold watchPart
        rw [recent_eq]
        split
        · intro h; simpa using h
        · intro h
          obtain ⟨m, hm, e⟩ := List.mem_map.mp h
          exact ⟨m, List.mem_of_mem_drop hm, e⟩
      obtain ⟨ev, hev⟩ := hk i (hn ▸ hi) k ((List.mem_append.mp hm).imp hsub (ha k))
      exact hq _ (.read false hi ht hoff hev (by simp))

/-- Work still to do: three steps for a message, two for an offer, one for what is held. -/
def Watching.work (s : Watching) : Nat :=
  ((List.range s.n).map (fun i => 3 * (s.part i).todo.length + if (s.part i).offer = .nothing then 0 else 2)).sum +
    if s.hold = .nothing then 0 else 1

theorem sum_range_lt {n i : Nat} {f g : Nat → Nat} {d : Nat} (hi : i < n) (h : f i + d ≤ g i) (ho : ∀ j, j ≠ i → f j = g j) :
    ((List.range n).map f).sum + d ≤ ((List.range n).map g).sum := by
  induction n with
  | zero => omega
  | succ n ih =>
    simp only [List.range_succ, List.map_append, List.map_cons, List.map_nil, List.sum_append, List.sum_cons, List.sum_nil]
    by_cases e : i = n
    · subst e
      have : (List.range i).map f = (List.range i).map g := List.map_congr_left fun j hj => ho j (by have := List.mem_range.mp hj; omega)
      rw [this]; omega
    · have := ih (by omega)
      have := ho n (fun h => e h.symm)
      omega

/-- Every step of the goroutines does work, so without new messages they come to rest after finitely many steps; with `C74_partial`,
the constructor then has returned. -/
theorem C74_progress {id : Bytes} {s t : Watching} (h : Watching.Work id s t) : t.work < s.work := by
  cases h with
  | @read i k ks ev stale hi htodo hoff hk hst =>
    have := sum_range_lt (n := s.n) (i := i) (d := 1)
      (f := fun j => 3 * ((s.upd i ⟨ks, (s.part i).due - 1, ev, (s.part i).done || ks.isEmpty || stale⟩).part j).todo.length +
        if ((s.upd i ⟨ks, (s.part i).due - 1, ev, (s.part i).done || ks.isEmpty || stale⟩).part j).offer = .nothing then 0 else 2)
      (g := fun j => 3 * (s.part j).todo.length + if (s.part j).offer = .nothing then 0 else 2) hi
      (by simp only [upd_part, if_true, htodo, hoff, List.length_cons]; split <;> omega)
      (by intro j hj; simp only [upd_part, hj, if_false])
    simp only [Watching.work]
    have e : (s.upd i ⟨ks, (s.part i).due - 1, ev, (s.part i).done || ks.isEmpty || stale⟩).hold = s.hold := rfl
    rw [e]
    have e : (s.upd i ⟨ks, (s.part i).due - 1, ev, (s.part i).done || ks.isEmpty || stale⟩).n = s.n := rfl
    rw [e]
    omega
  | @take i hi hoff hhold =>
    have := sum_range_lt (n := s.n) (i := i) (d := 2)
      (f := fun j => 3 * ((s.upd i { s.part i with offer := .nothing }).part j).todo.length +
        if ((s.upd i { s.part i with offer := .nothing }).part j).offer = .nothing then 0 else 2)
      (g := fun j => 3 * (s.part j).todo.length + if (s.part j).offer = .nothing then 0 else 2) hi
      (by simp only [upd_part, if_true, hoff, if_false]; omega)
      (by intro j hj; simp only [upd_part, hj, if_false])
    have hx : (if ({ s.upd i { s.part i with offer := .nothing } with hold := (s.part i).offer } : Watching).hold = .nothing then 0 else 1) = 1 := by
      simp only [hoff, if_false]
    have hy : (if s.hold = .nothing then 0 else 1) = 0 := by simp only [hhold, if_true]
    unfold Watching.work
    rw [hx, hy]
    exact Nat.lt_of_succ_le (Nat.le_trans (by exact Nat.le_refl _) this)
  | @add x hx => simp [Watching.work, hx]
  | @beat x hx => simp [Watching.work, hx]

/-- The hypotheses of `C73_partial` and `C74_partial` are met: from the state of `C73_refuted` the header goes into the cache, after which
nobody can go on. -/
example : ∃ s, Watching.Steps [] (fun _ _ => False) (Watching.init 1 (watchParts exLogs fun _ => true)) s ∧ s.Ready ∧
    (∀ t, ¬ Watching.Work [] s t) ∧ s.cache.contains (exHash 1) = true := by
  have hp : watchParts exLogs (fun _ => true) 0 = ⟨[exHeader7.key], 1, .nothing, false⟩ := by rfl
  have hk : watchKey [] exHeader7.key = .ok (.hash (exHash 1)) := by decide +kernel
  refine ⟨_, .tail (.tail (.tail .refl (.work (.read (i := 0) (k := exHeader7.key) (ks := []) (ev := .hash (exHash 1)) false (by decide) ?_ ?_ hk (by simp))))
    (.work (.take (i := 0) (by decide) ?_ rfl))) (.work (.add (h := exHash 1) ?_)), ?_, ?_, ?_⟩
  · simp [Watching.init, hp]
  · simp [Watching.init, hp]
  · simp [Watching.upd]
  · simp [Watching.upd]
  · intro i hi
    have : i = 0 := by simp [Watching.upd, Watching.init] at hi; omega
    subst this
    simp [Watching.upd]
  · intro t h
    cases h with
    | @read i _ _ _ _ hi h =>
      have : i = 0 := by simp [Watching.upd, Watching.init] at hi; omega
      subst this
      simp [Watching.upd] at h
    | @take i hi h =>
      have : i = 0 := by simp [Watching.upd, Watching.init] at hi; omega
      subst this
      simp [Watching.upd] at h
    | add h => simp at h
    | beat h => simp at h
  · decide +kernel

/-- A message that arrives at a partition after the start is read too, and its hash goes into the cache. -/
example : ∃ s, Watching.Steps [] (fun i k => i = 0 ∧ k = exHeader7.key) (Watching.init 1 (watchParts (fun _ => ⟨0, []⟩) fun _ => true)) s ∧
    s.cache.contains (exHash 1) = true ∧ (watchParts (fun _ => ⟨0, []⟩) (fun _ => true) 0).todo = [] := by
  have hp : watchParts (fun _ => ⟨0, []⟩) (fun _ => true) 0 = ⟨[], 0, .nothing, true⟩ := by rfl
  have hk : watchKey [] exHeader7.key = .ok (.hash (exHash 1)) := by decide +kernel
  refine ⟨_, .tail (.tail (.tail (.tail .refl (.arrive (i := 0) (k := exHeader7.key) (by decide) ⟨rfl, rfl⟩))
    (.work (.read (i := 0) (k := exHeader7.key) (ks := []) (ev := .hash (exHash 1)) false (by decide) ?_ ?_ hk (by simp))))
    (.work (.take (i := 0) (by decide) ?_ rfl))) (.work (.add (h := exHash 1) ?_)), ?_, ?_⟩
  · simp [Watching.init, hp, Watching.upd]
  · simp [Watching.init, hp, Watching.upd]
  · simp [Watching.upd]
  · simp [Watching.upd]
  · decide +kernel
  · simp [hp]

end Verif
