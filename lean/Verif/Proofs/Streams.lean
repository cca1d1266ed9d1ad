import Verif.Model.Streams
/-!
# What holds of the server side of the websocket transport at all times
-/
namespace Verif

variable {leaves drains : Nat → Bool} {n : Nat} {stored : Nat → List WMsg} {msgs : List WMsg}

/-- The messages of the feed that a subscription has been sent. -/
structure SrvLive (sent : List WMsg) (prod : SrvProd) (x : SrvStream) (l : List WMsg) : Prop where
  since : x.since.getD 0 ≤ sent.length
  pre : l <+: sent.drop (x.since.getD 0)
  all : x.sub = true → x.due = false → l = sent.drop (x.since.getD 0)
  due : x.due = true → ∃ m, prod = .sending m ∧ l ++ [m] = sent.drop (x.since.getD 0)

/-- What a subscription has been sent, by the place of its first goroutine. -/
def SrvItems (stored sent : List WMsg) (prod : SrvProd) (x : SrvStream) : Prop :=
  match x.init with
  | .stored rest => stored = x.got ++ x.chan ++ rest ∧ x.sub = false ∧ x.since = none
  | .checked => stored = x.got ++ x.chan ∧ x.sub = false ∧ x.since = none
  | .subscribed => x.sub = true ∧ ∃ l, x.got ++ x.chan = stored ++ l ∧ SrvLive sent prod x l
  | .done => (x.got ++ x.chan = stored ∧ x.sub = false ∧ x.gone = true ∧ x.since = none) ∨
      ∃ a b, x.got ++ x.chan = stored ++ (a ++ .ready :: b) ∧ SrvLive sent prod x (a ++ b)

/-- What holds of one subscription. -/
structure SrvOk (stored sent : List WMsg) (prod : SrvProd) (x : SrvStream) : Prop where
  cap : x.chan.length ≤ subchCap
  high : ∀ rest, x.init = .stored rest → x.gone = false → x.chan.length ≤ subchHigh + 1
  gone : x.watch ≠ .idle → x.gone = true
  late : x.watch ≠ .idle → x.watch ≠ .waiting → x.init = .done ∧ x.sub = false ∧ x.due = false
  shut : x.chanOpen = false ↔ x.watch = .closed ∨ x.watch = .ended
  dueSub : x.due = true → x.sub = true ∧ ∃ m, prod = .sending m
  stays : x.init = .done → x.sub = false → x.gone = true
  stays' : x.init = .subscribed → x.sub = true
  items : SrvItems stored sent prod x

/-- The message the producer holds. -/
def SrvProd.inHand : SrvProd → List WMsg
  | .holding m => [m]
  | _ => []

/-- What holds of the server. -/
structure SrvInv (n : Nat) (stored : Nat → List WMsg) (msgs : List WMsg) (s : SrvSys) : Prop where
  size : s.n = n
  ok : ∀ i, i < n → SrvOk (stored i) s.sent s.prod (s.stream i)
  msgs : s.sent ++ (s.prod.inHand ++ s.todo) = msgs
  excl : ∀ i, i < n → (s.stream i).watch.holds = true → s.prod = .idle
  one : ∀ i j, i < n → j < n → (s.stream i).watch.holds = true → (s.stream j).watch.holds = true → i = j

theorem SrvSys.upd_same (s : SrvSys) (i : Nat) (x : SrvStream) : (s.upd i x).stream i = x := by simp [SrvSys.upd]

theorem SrvSys.upd_other (s : SrvSys) {i j : Nat} (x : SrvStream) (h : j ≠ i) : (s.upd i x).stream j = s.stream j := by simp [SrvSys.upd, h]

theorem SrvSys.upd_field (s : SrvSys) {i j : Nat} {x : SrvStream} {β : Type} (f : SrvStream → β) (h : f x = f (s.stream j)) :
    f ((s.upd j x).stream i) = f (s.stream i) := by
  by_cases e : i = j
  · subst e; rw [SrvSys.upd_same]; exact h
  · rw [SrvSys.upd_other s _ e]

theorem SrvLive.imp {sent : List WMsg} {prod : SrvProd} {x y : SrvStream} {l : List WMsg} (h : SrvLive sent prod x l) (h1 : y.since = x.since) (h2 : y.sub = x.sub)
    (h3 : y.due = x.due) : SrvLive sent prod y l := ⟨h1 ▸ h.since, h1 ▸ h.pre, h1 ▸ h2 ▸ h3 ▸ h.all, h1 ▸ h3 ▸ h.due⟩

theorem SrvLive.idle {sent : List WMsg} {prod prod' : SrvProd} {x : SrvStream} (hd : x.due = false) {l : List WMsg}
    (h : SrvLive sent prod x l) : SrvLive sent prod' x l := ⟨h.since, h.pre, h.all, fun h1 => by rw [hd] at h1; cases h1⟩

theorem SrvItems.imp {st sent sent' : List WMsg} {prod prod' : SrvProd} {x y : SrvStream} (h : SrvItems st sent prod x) (hi : y.init = x.init) (hgc : y.got ++ y.chan = x.got ++ x.chan)
    (hs : y.sub = x.sub) (hw : y.since = x.since) (hg : x.gone = true → y.gone = true) (hl : ∀ l, SrvLive sent prod x l → SrvLive sent' prod' y l) :
    SrvItems st sent' prod' y := by
  unfold SrvItems at h ⊢
  rw [hi, hgc, hs, hw]
  split at h
  · exact h
  · exact h
  · obtain ⟨h0, l, e1, h⟩ := h; exact ⟨h0, l, e1, hl _ h⟩
  · rcases h with h | ⟨a, b, e1, h⟩
    · exact .inl ⟨h.1, h.2.1, hg h.2.2.1, h.2.2.2⟩
    · exact .inr ⟨a, b, e1, hl _ h⟩

/-- A step of one subscription that does not take the lock. -/
theorem SrvInv.upd {s : SrvSys} (h : SrvInv n stored msgs s) {i : Nat} {x : SrvStream} (hx : i < n → SrvOk (stored i) s.sent s.prod x)
    (hw : x.watch.holds = true → (s.stream i).watch.holds = true ∧ i < n) : SrvInv n stored msgs (s.upd i x) := by
  refine ⟨h.size, fun j hj => ?_, h.msgs, fun j hj hh => ?_, fun j k hj hk h1 h2 => ?_⟩
  · by_cases e : j = i
    · subst e; rw [SrvSys.upd_same]; exact hx hj
    · rw [SrvSys.upd_other s x e]; exact h.ok j hj
  · by_cases e : j = i
    · subst e; rw [SrvSys.upd_same] at hh; exact h.excl j hj (hw hh).1
    · rw [SrvSys.upd_other s x e] at hh; exact h.excl j hj hh
  · have key : ∀ k, k < n → ((s.upd i x).stream k).watch.holds = true → (s.stream k).watch.holds = true := by
      intro k hk hh
      by_cases e : k = i
      · subst e; rw [SrvSys.upd_same] at hh; exact (hw hh).1
      · rwa [SrvSys.upd_other s x e] at hh
    exact h.one j k hj hk (key j hj h1) (key k hk h2)

theorem srv_start : SrvInv n stored msgs (SrvSys.start n stored msgs) := by
  refine ⟨rfl, fun i _ => ?_, rfl, fun i _ h => by simp [SrvSys.start, SrvWatch.holds] at h, fun i j _ _ h => by simp [SrvSys.start, SrvWatch.holds] at h⟩
  constructor <;> simp [SrvSys.start, SrvItems, subchHigh]

theorem srv_step {s t : SrvSys} (h : SrvInv n stored msgs s) (hs : SrvSys.Step leaves drains s t) : SrvInv n stored msgs t := by
  have hn := h.size
  cases hs with
  | @push i m rest hi hp hg hc ho =>
    rw [hn] at hi
    have k := h.ok i hi
    refine h.upd (fun _ => ?_) (fun hh => ⟨hh, hi⟩)
    have hit := k.items
    simp only [SrvItems, hp] at hit
    refine { k with cap := ?_, high := ?_, late := ?_, stays := ?_, stays' := ?_, items := ?_ }
    · simp only [List.length_append, List.length_singleton]; omega
    · intro r hr hgo
      simp only [List.length_append, List.length_singleton]
      rcases hg with hg | hg
      · omega
      · exact absurd (hg.symm.trans hgo) (by simp)
    · intro h1 h2; have := (k.late h1 h2).1; rw [hp] at this; cases this
    · intro h1; cases h1
    · intro h1; cases h1
    · simp only [SrvItems]
      exact ⟨by rw [hit.1]; simp, hit.2⟩
  | @check i hi hp hg =>
    rw [hn] at hi
    have k := h.ok i hi
    refine h.upd (fun _ => ?_) (fun hh => ⟨hh, hi⟩)
    have hit := k.items
    simp only [SrvItems, hp] at hit
    refine { k with high := ?_, late := ?_, stays := ?_, stays' := ?_, items := ?_ }
    · intro r hr; cases hr
    · intro h1 h2; have := (k.late h1 h2).1; rw [hp] at this; cases this
    · intro h1; cases h1
    · intro h1; cases h1
    · simp only [SrvItems]
      exact ⟨by rw [hit.1]; simp, hit.2⟩
  | @skip i hi hp hg =>
    rw [hn] at hi
    have k := h.ok i hi
    refine h.upd (fun _ => ?_) (fun hh => ⟨hh, hi⟩)
    have hit := k.items
    simp only [SrvItems, hp] at hit
    refine { k with high := ?_, late := ?_, stays := ?_, stays' := ?_, items := ?_ }
    · intro r hr; cases hr
    · intro h1 h2; have := (k.late h1 h2).1; rw [hp] at this; cases this
    · intro h1 h2; exact hg
    · intro h1; cases h1
    · simp only [SrvItems]
      exact .inl ⟨by rw [hit.1]; simp, hit.2.1, hg, hit.2.2⟩
  | @subscribe i hi hp =>
    rw [hn] at hi
    have k := h.ok i hi
    refine h.upd (fun _ => ?_) (fun hh => ⟨hh, hi⟩)
    have hit := k.items
    simp only [SrvItems, hp] at hit
    have hdue : (s.stream i).due = false := by
      cases hd : (s.stream i).due with
      | false => rfl
      | true => have := (k.dueSub hd).1; rw [hit.2.1] at this; cases this
    refine { k with high := ?_, late := ?_, dueSub := ?_, stays := ?_, stays' := ?_, items := ?_ }
    · intro r hr; cases hr
    · intro h1 h2; have := (k.late h1 h2).1; rw [hp] at this; cases this
    · intro h1; rw [hdue] at h1; cases h1
    · intro h1; cases h1
    · intro _; rfl
    · simp only [SrvItems]
      refine ⟨trivial, [], by rw [hit.1]; simp, Nat.le_refl _, by simp, by simp, fun h1 => by rw [hdue] at h1; cases h1⟩
  | @ready i hi hp hc ho =>
    rw [hn] at hi
    have k := h.ok i hi
    refine h.upd (fun _ => ?_) (fun hh => ⟨hh, hi⟩)
    have hit := k.items
    simp only [SrvItems, hp] at hit
    obtain ⟨hsub, l, e, hl⟩ := hit
    refine { k with cap := ?_, high := ?_, late := ?_, stays := ?_, stays' := ?_, items := ?_ }
    · simp only [List.length_append, List.length_singleton]; omega
    · intro r hr; cases hr
    · intro h1 h2; have := (k.late h1 h2).1; rw [hp] at this; cases this
    · intro _ h2; rw [hsub] at h2; cases h2
    · intro h1; cases h1
    · simp only [SrvItems]
      refine .inr ⟨l, [], ?_, ?_⟩
      · rw [← List.append_assoc, e]; simp
      · rw [List.append_nil]; exact ⟨hl.since, hl.pre, hl.all, hl.due⟩
  | @seen i hi hp hg =>
    rw [hn] at hi
    have k := h.ok i hi
    refine h.upd (fun _ => ?_) (fun hh => by simp [SrvWatch.holds] at hh)
    refine { k with gone := fun _ => hg, late := fun _ h2 => absurd rfl h2, shut := ?_, items := k.items.imp rfl rfl rfl rfl id (fun _ h => h.imp rfl rfl rfl) }
    rw [k.shut, hp]; simp
  | @unsubscribe i hi hp hd =>
    rw [hn] at hi
    have k := h.ok i hi
    refine h.upd (fun _ => ?_) (fun hh => by simp [SrvWatch.holds] at hh)
    have hg := k.gone (by simp [hp])
    have hit := k.items
    simp only [SrvItems, hd] at hit
    refine { k with gone := fun _ => hg, late := fun _ _ => ⟨hd, rfl, rfl⟩, shut := ?_, dueSub := ?_, stays := fun _ _ => hg, stays' := ?_, items := ?_ }
    · rw [k.shut, hp]; simp
    · intro h1; cases h1
    · intro h1; rw [hd] at h1; cases h1
    · simp only [SrvItems, hd]
      rcases hit with ⟨h1, _, h3, h4⟩ | ⟨a, b, e, hl⟩
      · exact .inl ⟨h1, trivial, h3, h4⟩
      · exact .inr ⟨a, b, e, hl.since, hl.pre, fun h1 => (by simp at h1), fun h1 => by simp at h1⟩
  | @lock i hi hp hpr hh =>
    rw [hn] at hi hh
    have k := h.ok i hi
    have hk : SrvOk (stored i) s.sent s.prod { s.stream i with watch := .locked } := by
      refine { k with gone := fun _ => k.gone (by simp [hp]), late := fun _ _ => k.late (by simp [hp]) (by simp [hp]), shut := ?_, items := k.items.imp rfl rfl rfl rfl id (fun _ h => h.imp rfl rfl rfl) }
      rw [k.shut, hp]; simp
    refine ⟨hn, fun j hj => ?_, h.msgs, fun _ _ _ => hpr, fun a b ha hb h1 h2 => ?_⟩
    · by_cases e : j = i
      · subst e; rw [SrvSys.upd_same]; exact hk
      · rw [SrvSys.upd_other s _ e]; exact h.ok j hj
    · have key : ∀ a, a < n → ((s.upd i { s.stream i with watch := .locked }).stream a).watch.holds = true → a = i := by
        intro a ha h1
        by_cases e : a = i
        · exact e
        · rw [SrvSys.upd_other s _ e, hh a ha] at h1; cases h1
      rw [key a ha h1, key b hb h2]
  | @close i hi hp ho =>
    rw [hn] at hi
    have k := h.ok i hi
    refine h.upd (fun _ => ?_) (fun _ => ⟨by rw [hp]; rfl, hi⟩)
    refine { k with gone := fun _ => k.gone (by simp [hp]), late := fun _ _ => k.late (by simp [hp]) (by simp [hp]), shut := by simp, items := k.items.imp rfl rfl rfl rfl id (fun _ h => h.imp rfl rfl rfl) }
  | @unlock i hi hp =>
    rw [hn] at hi
    have k := h.ok i hi
    refine h.upd (fun _ => ?_) (fun hh => by simp [SrvWatch.holds] at hh)
    refine { k with gone := fun _ => k.gone (by simp [hp]), late := fun _ _ => k.late (by simp [hp]) (by simp [hp]), shut := ?_, items := k.items.imp rfl rfl rfl rfl id (fun _ h => h.imp rfl rfl rfl) }
    rw [k.shut, hp]; simp
  | @read i m rest hi hc hg =>
    rw [hn] at hi
    have k := h.ok i hi
    refine h.upd (fun _ => ?_) (fun hh => ⟨hh, hi⟩)
    have hcap := k.cap
    rw [hc] at hcap
    have hlen : rest.length + 1 ≤ subchCap := hcap
    have e : (s.stream i).got ++ [m] ++ rest = (s.stream i).got ++ (s.stream i).chan := by rw [hc]; simp
    refine { k with cap := by simp only []; omega, high := ?_, items := ?_ }
    · intro r hr hgo
      have := k.high r hr hgo
      rw [hc] at this
      simp only [List.length_cons] at this
      simp only []; omega
    · exact k.items.imp rfl e rfl rfl id (fun _ h => h.imp rfl rfl rfl)
  | @leave i hi hl hg =>
    rw [hn] at hi
    have k := h.ok i hi
    refine h.upd (fun _ => ?_) (fun hh => ⟨hh, hi⟩)
    refine { k with high := fun _ _ h2 => (by simp at h2), gone := fun _ => rfl, stays := fun _ _ => rfl,
                     items := k.items.imp rfl rfl rfl rfl (fun _ => rfl) (fun _ h => h.imp rfl rfl rfl) }
  | @rlock m rest hp ht he =>
    rw [hn] at he
    refine ⟨hn, fun i hi => ?_, ?_, fun i hi hh => ?_, h.one⟩
    · have k := h.ok i hi
      have hdue : (s.stream i).due = false := by
        cases hd : (s.stream i).due with
        | false => rfl
        | true => obtain ⟨_, m, hm⟩ := k.dueSub hd; rw [hp] at hm; cases hm
      refine { k with dueSub := fun h1 => (by rw [hdue] at h1; cases h1), items := k.items.imp rfl rfl rfl rfl id (fun _ h => h.idle hdue) }
    · have := h.msgs
      rw [hp, ht] at this
      simpa [SrvProd.inHand] using this
    · have := he i hi
      unfold SrvWatch.excludes at this
      rw [show (s.stream i).watch.holds = true from hh] at this
      simp at this
  | @begin m hp =>
    refine ⟨hn, fun i hi => ?_, ?_, fun i hi hh => ?_, h.one⟩
    · have k := h.ok i hi
      have hdue : (s.stream i).due = false := by
        cases hd : (s.stream i).due with
        | false => rfl
        | true => obtain ⟨_, m', hm⟩ := k.dueSub hd; rw [hp] at hm; cases hm
      have live : ∀ l, SrvLive s.sent s.prod (s.stream i) l → SrvLive (s.sent ++ [m]) (.sending m) { s.stream i with due := (s.stream i).sub } l := by
        intro l hl
        have hs := hl.since
        have ed : (s.sent ++ [m]).drop ((s.stream i).since.getD 0) = s.sent.drop ((s.stream i).since.getD 0) ++ [m] := List.drop_append_of_le_length hs
        refine ⟨by simp only [List.length_append]; omega, ?_, ?_, ?_⟩
        · simp only []; rw [ed]; exact hl.pre.trans (List.prefix_append _ _)
        · intro h1 h2; simp only [] at h1 h2; rw [h1] at h2; cases h2
        · intro h1
          refine ⟨m, rfl, ?_⟩
          simp only []
          rw [ed, hl.all h1 hdue]
      refine { k with dueSub := fun h1 => ⟨h1, m, rfl⟩, late := ?_, items := ?_ }
      · intro h1 h2
        obtain ⟨a, b, c⟩ := k.late h1 h2
        exact ⟨a, b, b⟩
      · exact k.items.imp rfl rfl rfl rfl id live
    · have := h.msgs
      rw [hp] at this
      simpa [SrvProd.inHand] using this
    · have := h.excl i hi hh
      rw [hp] at this; cases this
  | @deliver i m hi hp hd hc ho =>
    rw [hn] at hi
    have k := h.ok i hi
    have hsub := (k.dueSub hd).1
    refine h.upd (fun _ => ?_) (fun hh => ⟨hh, hi⟩)
    have live : ∀ l, SrvLive s.sent s.prod (s.stream i) l →
        SrvLive s.sent s.prod { s.stream i with chan := (s.stream i).chan ++ [m], due := false } (l ++ [m]) := by
      intro l hl
      obtain ⟨m', e1, e2⟩ := hl.due hd
      rw [hp] at e1; cases e1
      exact ⟨hl.since, by simp only []; rw [e2]; exact List.prefix_refl _, fun _ _ => e2, fun h1 => by simp at h1⟩
    have hit := k.items
    refine { k with cap := ?_, high := ?_, late := ?_, dueSub := fun h1 => (by simp at h1), items := ?_ }
    · simp only [List.length_append, List.length_singleton]; omega
    · intro r hr
      simp only [] at hr
      simp only [SrvItems, hr] at hit
      rw [hsub] at hit; cases hit.2.1
    · intro h1 h2
      obtain ⟨_, b, _⟩ := k.late h1 h2
      rw [hsub] at b; cases b
    · unfold SrvItems at hit ⊢
      simp only []
      split at hit
      · rw [hsub] at hit; cases hit.2.1
      · rw [hsub] at hit; cases hit.2.1
      · obtain ⟨h0, l, e1, hl⟩ := hit
        refine ⟨h0, l ++ [m], ?_, live _ hl⟩
        rw [← List.append_assoc, e1]; simp
      · rcases hit with hit | ⟨a, b, e1, hl⟩
        · rw [hsub] at hit; cases hit.2.1
        · refine .inr ⟨a, b ++ [m], ?_, ?_⟩
          · rw [← List.append_assoc, e1]; simp
          · rw [← List.append_assoc]; exact live _ hl
  | @finish m hp hd =>
    rw [hn] at hd
    refine ⟨hn, fun i hi => ?_, ?_, fun _ _ _ => rfl, h.one⟩
    · have k := h.ok i hi
      have hdue := hd i hi
      refine { k with dueSub := fun h1 => (by rw [hdue] at h1; cases h1), items := k.items.imp rfl rfl rfl rfl id (fun _ h => h.idle hdue) }
    · have := h.msgs
      rw [hp] at this
      simpa [SrvProd.inHand] using this

theorem srv_steps {s : SrvSys} (hs : SrvSys.Steps (SrvSys.Step leaves drains) (SrvSys.start n stored msgs) s) : SrvInv n stored msgs s := by
  induction hs with
  | refl => exact srv_start
  | step _ h ih => exact srv_step ih h

end Verif
