import Verif.Props.WebsocketLife
/-!
# C108: what a websocket consumer handles, over all its connections
-/
namespace Verif

/-- What arrived behind the answer that grants the subscription. -/
def Spec.after : List LFrame → List LFrame
  | [] => []
  | .granted :: l => l
  | _ :: l => Spec.after l

/-- An item of the subscription. -/
def Spec.item? : LFrame → Option WMsg
  | .frame (.item m) => some m
  | _ => none

/-- The items that a server sent for the subscription on one connection. -/
def Spec.items (l : List LFrame) : List WMsg := (Spec.after l).filterMap Spec.item?

/-- Behind the answer come only pings, items, and items of other subscriptions (see C70 for messages that are none of these). -/
def Spec.Clean (l : List LFrame) : Prop := ∀ f ∈ Spec.after l, f ≠ .granted ∧ f ≠ .refused ∧ f ≠ .frame .junk

/-- Executions from the start, with all that has arrived on each connection. -/
inductive Spec.History : LWs → (Nat → List LFrame) → Prop
  | init : Spec.History LWs.init (fun _ => [])
  | arrive {s a k f} : Spec.History s a → k < s.made → (s.conn k).up = true →
      Spec.History (s.upd k { s.conn k with buf := (s.conn k).buf ++ [f] }) (fun j => if j = k then a k ++ [f] else a j)
  | world {s t a} : Spec.History s a → LWs.World s t → (∀ k, (t.conn k).buf = (s.conn k).buf) → Spec.History t a
  | go {s t a} : Spec.History s a → LWs.Go s t → Spec.History t a
  | shut {s t a} : Spec.History s a → LWs.Shut s t → Spec.History t a

/-- The items of the first `n` connections, one connection after the other. -/
def Spec.sent (a : Nat → List LFrame) (n : Nat) : List WMsg := (List.range n).flatMap fun k => Spec.items (a k)

open Spec

theorem Spec.History.reach {s : LWs} {a} (h : History s a) : s.Reach := by
  induction h with
  | init => exact .init
  | arrive _ h1 h2 ih => exact ih.world (.arrive h1 h2)
  | world _ h _ ih => exact ih.world h
  | go _ h ih => exact ih.go h
  | shut _ h ih => exact ih.shut h

/-- Every execution has a history. -/
theorem Spec.History.exists {s : LWs} (h : s.Reach) : ∃ a, History s a := by
  induction h with
  | refl => exact ⟨_, .init⟩
  | @step t u _ hst ih =>
    obtain ⟨a, ih⟩ := ih
    cases hst with
    | go h => exact ⟨a, .go ih h⟩
    | shut h => exact ⟨a, .shut ih h⟩
    | world h =>
      cases h with
      | arrive h1 h2 => exact ⟨_, .arrive ih h1 h2⟩
      | cut h1 h2 => refine ⟨a, .world ih (.cut h1 h2) fun k => ?_⟩; simp only [LWs.upd]; split <;> simp_all
      | started h1 h2 => exact ⟨a, .world ih (.started h1 h2) fun k => rfl⟩

theorem after_none {l : List LFrame} (h : LFrame.granted ∉ l) : after l = [] := by
  induction l with
  | nil => rfl
  | cons f l ih =>
    have hf : LFrame.granted ∉ l := fun hm => h (List.mem_cons_of_mem _ hm)
    cases f with
    | granted => exact absurd (List.mem_cons_self) h
    | refused => exact ih hf
    | frame x => exact ih hf

theorem after_some {p l : List LFrame} (h : LFrame.granted ∉ p) : after (p ++ .granted :: l) = l := by
  induction p with
  | nil => rfl
  | cons f p ih =>
    have hf : LFrame.granted ∉ p := fun hm => h (List.mem_cons_of_mem _ hm)
    cases f with
    | granted => exact absurd (List.mem_cons_self) h
    | refused => exact ih hf
    | frame x => exact ih hf

theorem after_append (l r : List LFrame) : after l <+: after (l ++ r) := by
  induction l with
  | nil => exact List.nil_prefix
  | cons f l ih =>
    cases f with
    | granted => exact List.prefix_append _ _
    | refused => exact ih
    | frame x => exact ih

theorem items_append (l r : List LFrame) : items l <+: items (l ++ r) := (after_append l r).filterMap _

theorem Spec.Clean.prefix {l r : List LFrame} (h : Clean (l ++ r)) : Clean l :=
  fun f hf => h f ((after_append l r).subset hf)

theorem sent_succ (a : Nat → List LFrame) (n : Nat) : sent a (n + 1) = sent a n ++ items (a n) := by simp [sent, List.range_succ, List.flatMap_append]

theorem sent_congr {a b : Nat → List LFrame} {n : Nat} (h : ∀ k, k < n → a k = b k) : sent a n = sent b n := by
  simp only [sent]
  rw [List.flatMap_def, List.flatMap_def]
  congr 1
  refine List.map_congr_left fun k hk => ?_
  rw [h k (List.mem_range.mp hk)]

/-- How much of what has arrived has been handled. -/
def LWs.At (s : LWs) (a : Nat → List LFrame) : Prop :=
  match s.place with
  | .subscribing => ∃ k read, s.cur = some k ∧ a k = read ++ (s.conn k).buf ∧ LFrame.granted ∉ read ∧ s.got = sent a k
  | .reading true _ => ∃ k pre post, s.cur = some k ∧ a k = pre ++ LFrame.granted :: (post ++ (s.conn k).buf) ∧ LFrame.granted ∉ pre ∧
      s.got = sent a k ++ post.filterMap item?
  | _ => s.got = sent a s.made ∧ ∀ k, (s.conn k).buf = []

/-- The invariant. -/
structure LWs.Hist (s : LWs) (a : Nat → List LFrame) : Prop where
  newer : ∀ k, s.made ≤ k → a k = []
  old : ∀ k, s.cur ≠ some k → (s.conn k).buf = []
  failed : ∀ k, (s.conn k).failed = true → (s.conn k).buf = []
  at_ : s.At a

/-- The connections that do not matter any more are empty, when the current one is. -/
theorem LWs.Hist.empty {s : LWs} {a} (h : s.Hist a) {k : Nat} (hc : s.cur = some k) (hb : (s.conn k).buf = []) : ∀ j, (s.conn j).buf = [] := by
  intro j
  by_cases hj : s.cur = some j
  · rw [hc] at hj; cases hj; exact hb
  · exact h.old j hj

theorem hist_of {s : LWs} {a} (h : History s a) (hcl : ∀ k, Clean (a k)) : s.Hist a := by
  induction h with
  | init => exact ⟨fun _ _ => rfl, fun _ _ => rfl, fun _ _ => rfl, by simp [LWs.At, LWs.init, sent]⟩
  | @arrive s a k f h h1 h2 ih =>
    have ih := ih fun j => by
      have := hcl j
      by_cases hj : j = k
      · subst hj; simp only [if_true] at this; exact this.prefix
      · simpa only [if_neg hj] using this
    have ok := h.reach.ok
    obtain ⟨hc, hopen⟩ := ok.only k h2
    refine ⟨fun j hj => ?_, fun j hj => ?_, fun j hj => ?_, ?_⟩
    · have hj : s.made ≤ j := hj
      rw [if_neg (by omega)]; exact ih.newer j hj
    · have hj : s.cur ≠ some j := hj
      have hjk : j ≠ k := fun e => hj (e ▸ hc)
      simp only [LWs.upd, if_neg hjk]; exact ih.old j hj
    · by_cases hjk : j = k
      · subst hjk
        simp only [LWs.upd, if_true] at hj
        have := ok.down j hj
        rw [h2] at this; cases this
      · simp only [LWs.upd, if_neg hjk] at hj ⊢; exact ih.failed j hj
    · have hat := ih.at_
      have hs : ∀ n, n ≤ k → sent (fun j => if j = k then a k ++ [f] else a j) n = sent a n := fun n hn => sent_congr fun j hj => by
        rw [if_neg (by omega)]
      unfold LWs.At at hat ⊢
      rw [show (s.upd k { s.conn k with buf := (s.conn k).buf ++ [f] }).place = s.place from rfl]
      cases hp : s.place with
      | subscribing =>
        rw [hp] at hat
        obtain ⟨k', read, e1, e2, e3, e4⟩ := hat
        rw [hc] at e1; cases e1
        exact ⟨k, read, hc, by simp [LWs.upd, e2], e3, by rw [hs k (Nat.le_refl k)]; exact e4⟩
      | reading sub last =>
        rw [hp] at hat
        cases sub with
        | true =>
          obtain ⟨k', pre, post, e1, e2, e3, e4⟩ := hat
          rw [hc] at e1; cases e1
          exact ⟨k, pre, post, hc, by simp [LWs.upd, e2], e3, by rw [hs k (Nat.le_refl k)]; exact e4⟩
        | false =>
          have := ok.down k (ok.nosub (by rw [hp]; rfl) k hc)
          rw [h2] at this; cases this
      | _ => rw [hp] at hopen; simp [LPlace.open] at hopen
  | @world s t a h hw hb ih =>
    have ih := ih hcl
    cases hw with
    | @arrive k f h1 h2 =>
      have := hb k
      simp [LWs.upd] at this
    | @cut k h1 h2 =>
      refine ⟨ih.newer, fun j hj => (hb j).trans (ih.old j hj), fun j hj => (hb j).trans (ih.failed j ?_), ?_⟩
      · simp only [LWs.upd] at hj
        split at hj
        · rename_i e; subst e; exact hj
        · exact hj
      · have hat := ih.at_
        have hat' : (s.upd k { s.conn k with up := false }).At a ↔ s.At a := by
          unfold LWs.At
          simp only [hb]
          exact Iff.rfl
        exact hat'.mpr hat
    | started h1 h2 => exact ⟨ih.newer, ih.old, ih.failed, ih.at_⟩
  | @shut s t a h hw ih =>
    have ih := ih hcl
    cases hw with
    | flag h1 => exact ⟨ih.newer, ih.old, ih.failed, ih.at_⟩
    | @close k h1 h2 =>
      have hb : ∀ j, ((if j = k then { s.conn k with up := false } else s.conn j) : LConn).buf = (s.conn j).buf := by
        intro j; split
        · rename_i e; subst e; rfl
        · rfl
      refine ⟨ih.newer, fun j hj => (hb j).trans (ih.old j hj), fun j hj => (hb j).trans (ih.failed j ?_), ?_⟩
      · simp only [LWs.upd] at hj
        split at hj
        · rename_i e; subst e; exact hj
        · exact hj
      · have hat := ih.at_
        have hat' : ({ (s.upd k { s.conn k with up := false }) with closer := .done } : LWs).At a ↔ s.At a := by
          unfold LWs.At
          simp only [LWs.upd, hb]
        exact hat'.mpr hat
    | panic h1 h2 => exact ⟨ih.newer, ih.old, ih.failed, ih.at_⟩
  | @go s t a h hw ih =>
    have ih := ih hcl
    have ok := h.reach.ok
    have hat := ih.at_
    unfold LWs.At at hat
    cases hw with
    | again hp hq => exact ⟨ih.newer, ih.old, ih.failed, by rw [hp] at hat; exact hat⟩
    | stop hp hq => exact ⟨ih.newer, ih.old, ih.failed, by rw [hp] at hat; exact hat⟩
    | refused hp => exact ⟨ih.newer, fun k _ => by rw [hp] at hat; exact hat.2 k, ih.failed, by rw [hp] at hat; exact hat⟩
    | rested hp => exact ⟨ih.newer, ih.old, ih.failed, by rw [hp] at hat; exact hat⟩
    | dialled hp =>
      rw [hp] at hat
      refine ⟨fun k hk => ih.newer k (Nat.le_of_succ_le hk), fun k _ => ?_, fun k hk => ?_, ?_⟩
      · simp only [LWs.upd]; split
        · rfl
        · exact hat.2 k
      · simp only [LWs.upd] at hk ⊢
        split at hk
        · cases hk
        · exact (if_neg (by assumption)).symm ▸ hat.2 k
      · exact ⟨s.made, [], rfl, by simp [LWs.upd, ih.newer s.made (Nat.le_refl _)], by simp, hat.1⟩
    | @granted k rest hp hc hf hbuf =>
      rw [hp] at hat
      obtain ⟨k', read, e1, e2, e3, e4⟩ := hat
      rw [hc] at e1; cases e1
      refine ⟨ih.newer, fun j hj => ?_, fun j hj => ?_, ?_⟩
      · have hjk : j ≠ k := fun e => hj (e ▸ hc)
        simp only [LWs.connected, LWs.upd, if_neg hjk]; exact ih.old j hj
      · simp only [LWs.connected, LWs.upd] at hj ⊢
        split
        · rename_i e; subst e; simp only [if_true] at hj; rw [hf] at hj; cases hj
        · rename_i e; simp only [if_neg e] at hj; exact ih.failed j hj
      · exact ⟨k, read, [], hc, by rw [e2, hbuf]; simp [LWs.connected, LWs.upd], e3, by simpa [LWs.connected, LWs.upd] using e4⟩
    | @skipped k f rest hp hc hf hbuf hne =>
      rw [hp] at hat
      obtain ⟨k', read, e1, e2, e3, e4⟩ := hat
      rw [hc] at e1; cases e1
      refine ⟨ih.newer, fun j hj => ?_, fun j hj => ?_, ?_⟩
      · have hjk : j ≠ k := fun e => hj (e ▸ hc)
        simp only [LWs.upd, if_neg hjk]; exact ih.old j hj
      · simp only [LWs.upd] at hj ⊢
        split
        · rename_i e; subst e; simp only [if_true] at hj; rw [hf] at hj; cases hj
        · rename_i e; simp only [if_neg e] at hj; exact ih.failed j hj
      · unfold LWs.At
        simp only [LWs.upd, hp]
        refine ⟨k, read ++ [f], hc, by rw [e2, hbuf]; simp, ?_, e4⟩
        simp only [List.mem_append, List.mem_singleton, not_or]
        exact ⟨e3, fun e => hne e.symm⟩
    | @lost k hp hc hx =>
      rw [hp] at hat
      obtain ⟨k', read, e1, e2, e3, e4⟩ := hat
      rw [hc] at e1; cases e1
      have hb : (s.conn k).buf = [] := hx.elim (ih.failed k) (fun h => h.1)
      have hall := ih.empty hc hb
      have hb' : ∀ j, ((if j = k then { s.conn k with failed := true } else s.conn j) : LConn).buf = [] := by
        intro j; split
        · exact hb
        · exact hall j
      refine ⟨ih.newer, fun j _ => hb' j, fun j _ => hb' j, ?_⟩
      refine ⟨?_, hb'⟩
      show s.got = sent a s.made
      rw [← ok.last k hc, sent_succ, e4, e2, hb, List.append_nil, items, after_none e3]
      simp
    | @read k sub last f rest hp hc hf hbuf =>
      rw [hp] at hat
      cases sub with
      | false =>
        have := ok.nosub (by rw [hp]; rfl) k hc
        rw [hf] at this; cases this
      | true =>
        obtain ⟨k', pre, post, e1, e2, e3, e4⟩ := hat
        rw [hc] at e1; cases e1
        rw [hbuf] at e2
        have hcl' := hcl k f (by rw [e2, after_some e3]; simp)
        obtain ⟨r1, r2, r3, _⟩ := LWs.receive_same (s := s.upd k { s.conn k with buf := rest }) (sub := true) (last := last) (f := f.seen)
        refine ⟨fun j hj => ih.newer j (by rw [r2] at hj; exact hj), fun j hj => ?_, fun j hj => ?_, ?_⟩
        · rw [r1] at hj
          have hjk : j ≠ k := fun e => hj (e ▸ hc)
          rw [r3]; simp only [LWs.upd, if_neg hjk]; exact ih.old j hj
        · rw [r3] at hj ⊢
          simp only [LWs.upd] at hj ⊢
          split
          · rename_i e; subst e; simp only [if_true] at hj; rw [hf] at hj; cases hj
          · rename_i e; simp only [if_neg e] at hj; exact ih.failed j hj
        · have e2' : a k = pre ++ LFrame.granted :: ((post ++ [f]) ++ rest) := by rw [e2]; simp
          cases f with
          | granted => exact absurd rfl hcl'.1
          | refused => exact absurd rfl hcl'.2.1
          | frame x =>
            cases x with
            | junk => exact absurd rfl hcl'.2.2
            | ping =>
              unfold LWs.At
              simp only [LFrame.seen, LWs.receive, LWs.upd, hp]
              exact ⟨k, pre, post ++ [.frame .ping], hc, by simpa using e2', e3, by simp [item?, e4]⟩
            | other =>
              unfold LWs.At
              simp only [LFrame.seen, LWs.receive, LWs.upd, if_true]
              exact ⟨k, pre, post ++ [.frame .other], hc, by simpa using e2', e3, by simp [item?, e4]⟩
            | item m =>
              unfold LWs.At
              simp only [LFrame.seen, LWs.receive, LWs.handle, LWs.upd, if_true]
              exact ⟨k, pre, post ++ [.frame (.item m)], hc, by simpa using e2', e3, by simp [item?, e4]⟩
    | @broken k sub last hp hc hx =>
      rw [hp] at hat
      have hb : (s.conn k).buf = [] := hx.elim (ih.failed k) (fun h => h.1)
      have hall := ih.empty hc hb
      have hb' : ∀ j, ((if j = k then { s.conn k with failed := true } else s.conn j) : LConn).buf = [] := by
        intro j; split
        · exact hb
        · exact hall j
      refine ⟨ih.newer, fun j _ => hb' j, fun j _ => hb' j, ?_, hb'⟩
      show s.got = sent a s.made
      cases sub with
      | false => exact hat.1
      | true =>
        obtain ⟨k', pre, post, e1, e2, e3, e4⟩ := hat
        rw [hc] at e1; cases e1
        rw [← ok.last k hc, sent_succ, e4, items, e2, hb, List.append_nil, after_some e3]

/-- **C108**: what has been handled is an initial part of what arrived for the subscriptions, one connection after the other, each item once and in order; and all of it
when nothing is left unread. -/
theorem C108_partial {s : LWs} {a} (h : History s a) (hcl : ∀ k, Clean (a k)) :
    s.got <+: sent a s.made ∧ ((∀ k, (s.conn k).buf = []) → s.got = sent a s.made) := by
  have hi := hist_of h hcl
  have ok := h.reach.ok
  have hat := hi.at_
  unfold LWs.At at hat
  have key : ∃ r, s.got ++ r = sent a s.made ∧ ((∀ k, (s.conn k).buf = []) → r = []) := by
    cases hp : s.place with
    | subscribing =>
      rw [hp] at hat
      obtain ⟨k, read, e1, e2, e3, e4⟩ := hat
      refine ⟨items (a k), by rw [← ok.last k e1, sent_succ, e4], fun hb => ?_⟩
      rw [e2, hb k, List.append_nil, items, after_none e3]; rfl
    | reading sub last =>
      rw [hp] at hat
      cases sub with
      | true =>
        obtain ⟨k, pre, post, e1, e2, e3, e4⟩ := hat
        refine ⟨(s.conn k).buf.filterMap item?, ?_, fun hb => by rw [hb k]; rfl⟩
        rw [← ok.last k e1, sent_succ, e4, items, e2, after_some e3, List.filterMap_append, List.append_assoc]
      | false => exact ⟨[], by rw [List.append_nil]; exact hat.1, fun _ => rfl⟩
    | _ => rw [hp] at hat; exact ⟨[], by rw [List.append_nil]; exact hat.1, fun _ => rfl⟩
  obtain ⟨r, e, hr⟩ := key
  refine ⟨⟨r, e⟩, fun hb => ?_⟩
  rw [hr hb, List.append_nil] at e
  exact e

/-- **C108**: nothing that arrived on an earlier connection is left when the next one is made: all its items have been handled. -/
theorem C108_earlier_partial {s : LWs} {a} (h : History s a) (hcl : ∀ k, Clean (a k)) {k : Nat} (hk : k + 1 < s.made) :
    (s.conn k).buf = [] ∧ sent a (k + 1) <+: s.got := by
  have hi := hist_of h hcl
  have ok := h.reach.ok
  have hne : s.cur ≠ some k := fun e => by have := ok.last k e; omega
  refine ⟨hi.old k hne, ?_⟩
  have mono : ∀ n m, n ≤ m → sent a n <+: sent a m := by
    intro n m hnm
    induction hnm with
    | refl => exact List.prefix_refl _
    | step _ ih => rw [sent_succ]; exact ih.trans (List.prefix_append _ _)
  have hat := hi.at_
  unfold LWs.At at hat
  cases hp : s.place with
  | subscribing =>
    rw [hp] at hat
    obtain ⟨j, read, e1, e2, e3, e4⟩ := hat
    rw [e4]; exact mono _ _ (by have := ok.last j e1; omega)
  | reading sub last =>
    rw [hp] at hat
    cases sub with
    | true =>
      obtain ⟨j, pre, post, e1, e2, e3, e4⟩ := hat
      rw [e4]; exact (mono _ _ (by have := ok.last j e1; omega)).trans (List.prefix_append _ _)
    | false => rw [hat.1]; exact mono _ _ (by omega)
  | _ => rw [hp] at hat; rw [hat.1]; exact mono _ _ (by omega)

/-- **C108**: the goroutine that reads returns only after `Close` has been called; until then it goes on, connection after connection. -/
theorem C108_goes_on {s : LWs} (h : s.Reach) (hp : s.place = .ended) : s.quit = true := by
  have key : s.place = .ended → s.quit = true := by
    clear hp
    induction h with
    | refl => intro h; cases h
    | @step t u h1 hst ih =>
      have ok := LWs.Reach.ok h1
      cases hst with
      | go h =>
        cases h with
        | stop h1 h2 => intro _; exact h2
        | @read k sub last f rest hp hc hf hb =>
          intro hend
          cases sub with
          | true =>
            obtain ⟨l, e⟩ := LWs.receive_open (s := t.upd k { t.conn k with buf := rest }) (last := last) (f := f.seen) (by exact hp)
            rw [e] at hend; cases hend
          | false =>
            have := ok.nosub (by rw [hp]; rfl) k hc
            rw [hf] at this; cases this
        | skipped hp => intro hend; have hend : t.place = .ended := hend; rw [hp] at hend; cases hend
        | _ => intro hend; cases hend
      | world h => cases h <;> exact ih
      | shut h => cases h <;> first | exact ih | exact fun _ => rfl
  exact key hp

/-- **C108 fails** when the server repeats an answer, or answers another request, on a connection where an item has been read: the last item is handled again. -/
theorem C108_refuted : ∃ (s : LWs) (a : Nat → List LFrame), History s a ∧ a 0 = [.granted, .frame (.item .ready), .refused] ∧ s.made = 1 ∧
    items (a 0) = [.ready] ∧ s.got = [.ready, .ready] := by
  have h0 := (History.init.go (.again rfl rfl)).go (.dialled rfl)
  have h1 := h0.arrive (k := 0) (f := .granted) (by decide) rfl
  have h2 := h1.arrive (k := 0) (f := .frame (.item .ready)) (by decide) rfl
  have h3 := h2.arrive (k := 0) (f := .refused) (by decide) rfl
  have h4 := h3.go (.granted (k := 0) rfl rfl rfl rfl)
  have h5 := h4.go (.read (k := 0) rfl rfl rfl rfl)
  have h6 := h5.go (.read (k := 0) (f := .refused) rfl rfl rfl rfl)
  exact ⟨_, _, h6, rfl, rfl, rfl, rfl⟩

/-- A case that meets the hypotheses of `C108_partial` and `C108_earlier_partial`: two connections with an item each. -/
example : ∃ (s : LWs) (a : Nat → List LFrame), History s a ∧ (∀ k, Clean (a k)) ∧ s.made = 2 ∧ s.got = [.ready, .batch exWBatch] ∧ 0 + 1 < s.made := by
  have h0 := (History.init.go (.again rfl rfl)).go (.dialled rfl)
  have h1 := h0.arrive (k := 0) (f := .granted) (by decide) rfl
  have h2 := h1.arrive (k := 0) (f := .frame (.item .ready)) (by decide) rfl
  have h3 := h2.world (.cut (k := 0) (by decide) rfl) (fun k => by by_cases h : k = 0 <;> simp [LWs.upd, h])
  have h4 := h3.go (.granted (k := 0) rfl rfl rfl rfl)
  have h5 := h4.go (.read (k := 0) rfl rfl rfl rfl)
  have h6 := h5.go (.broken (k := 0) rfl rfl (.inr ⟨rfl, rfl⟩))
  have h7 := (h6.go (.again rfl rfl)).go (.dialled rfl)
  have h8 := h7.arrive (k := 1) (f := .granted) (by decide) rfl
  have h9 := h8.arrive (k := 1) (f := .frame (.item (.batch exWBatch))) (by decide) rfl
  have h10 := h9.go (.granted (k := 1) rfl rfl rfl rfl)
  have h11 := h10.go (.read (k := 1) rfl rfl rfl rfl)
  refine ⟨_, _, h11, ?_, rfl, rfl, Nat.lt_succ_self 1⟩
  intro k f hf
  match k with
  | 0 =>
    have hf : f ∈ [LFrame.frame (.item .ready)] := hf
    simp only [List.mem_singleton] at hf; subst hf; simp
  | 1 =>
    have hf : f ∈ [LFrame.frame (.item (.batch exWBatch))] := hf
    simp only [List.mem_singleton] at hf; subst hf; simp
  | k + 2 => cases hf

/-- A case that meets the hypotheses of `C108_goes_on`. -/
example : ∃ s : LWs, s.Reach ∧ s.place = .ended := ⟨_, (LWs.Reach.init.shut (.flag rfl)).go (.stop rfl rfl), rfl⟩

end Verif
