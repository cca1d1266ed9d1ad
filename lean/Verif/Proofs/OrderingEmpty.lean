import Verif.Proofs.OrderingRun
import Verif.Proofs.OrderingRecent
import Verif.Proofs.OrderingStays
/-! What the ordering layer does with blocks that connect to nothing it knows. -/
namespace Verif
open Spec

variable {o : MapOrder} {D : PB → Prop} {c : Nat} {V : List Hash}

/-- The hashes `V` are remembered, or the cache is full. -/
structure Keeps (V : List Hash) (c : Nat) (s : OMP) : Prop where
  cap : s.finished.cap = c
  nodup : s.finished.items.Nodup
  len : s.finished.items.length ≤ c
  has : (∀ h ∈ V, h ∈ s.finished.items) ∨ s.finished.items.length = c

theorem Keeps.of_fin {s s' : OMP} (h : Keeps V c s) (e : s'.finished = s.finished) : Keeps V c s' :=
  ⟨by rw [e]; exact h.cap, by rw [e]; exact h.nodup, by rw [e]; exact h.len, by rw [e]; exact h.has⟩

theorem add_full {l : LRU Hash} {h : Hash} (hn : l.items.Nodup) (hf : l.items.length = l.cap) (h0 : 0 < l.cap) :
    (l.add h).1.items.length = l.cap := by
  unfold LRU.add
  split
  · rename_i hk
    have : (l.items.filter (fun x => x ≠ h)).length + 1 = l.items.length := by
      have e := hn.erase_eq_filter h
      have : (l.items.erase h).length = l.items.length - 1 := List.length_erase_of_mem hk
      have e2 : l.items.filter (fun x => x ≠ h) = l.items.erase h := by
        rw [e]; congr 1; funext x; by_cases hx : x = h <;> simp [hx]
      rw [e2, this]
      have := List.length_pos_of_mem hk
      omega
    simp only [List.length_cons]; omega
  · split
    · omega
    · simp only [List.length_dropLast, List.length_cons]; omega

theorem finAdd_fin (s : OMP) (h : Hash) :
    Out (fun _ => True) (fun s' => s'.finished = (s.finished.add h).1) (s.finAdd o h) := by
  unfold OMP.finAdd
  simp only []
  split
  · exact rfl
  · exact evictAux_finished _ _ _

theorem finAdd_keeps (h0 : 0 < c) (s : OMP) (h : Hash) (hs : Keeps V c s) :
    Out (fun _ => True) (fun s' => Keeps (h :: V) c s') (s.finAdd o h) := by
  refine (finAdd_fin s h).imp (fun s' e => ?_)
  refine ⟨by rw [e, LRU.add_cap]; exact hs.cap, by rw [e]; exact add_nodup hs.nodup, ?_, ?_⟩
  · rw [e, ← hs.cap]; exact LRU.length_add_le _ _ (by rw [hs.cap]; exact hs.len)
  · rw [e]
    by_cases hf : s.finished.items.length = c
    · right
      rw [← hs.cap]; exact add_full hs.nodup (by rw [hs.cap]; exact hf) (by rw [hs.cap]; exact h0)
    · left
      have := hs.len
      have hnone := LRU.add_none_of_room (c := s.finished) (k := h) (by rw [hs.cap]; omega)
      intro x hx
      rw [LRU.add_fst_of_snd_none hnone]
      rcases List.mem_cons.mp hx with rfl | hx
      · exact .inl rfl
      · rcases hs.has with hv | hv
        · exact .inr (hv x hx)
        · exact (hf hv).elim

theorem Keeps.tail {h : Hash} {s : OMP} (hs : Keeps (h :: V) c s) : Keeps V c s :=
  ⟨hs.cap, hs.nodup, hs.len, hs.has.imp (fun h x hx => h x (by simp [hx])) id⟩

theorem finishChildren_keeps (h0 : 0 < c) (n : Nat) (s : OMP) (h : Hash) (hs : Keeps V c s) :
    Out (fun _ => True) (Keeps V c) (OMP.finishPendingChildrenAux o n s h) := by
  induction n generalizing s h with
  | zero => trivial
  | succ n ih =>
    unfold OMP.finishPendingChildrenAux
    simp only []
    refine (finAdd_keeps h0 s h hs).bind ?_
    intro s' hs'
    split
    · exact hs'.tail
    · exact Out.foldlM (fun t x _ ht => ih _ _ ht) (by exact hs'.tail.of_fin rfl)

theorem finishSiblings_keeps (h0 : 0 < c) (s : OMP) (pb : PB) (hs : Keeps V c s) :
    Out (fun _ => True) (Keeps V c) (s.finishSiblings o pb) := by
  unfold OMP.finishSiblings
  split
  · exact hs
  · refine Out.foldlM ?_ (by exact hs.of_fin rfl)
    intro t x _ ht
    split
    · exact finishChildren_keeps h0 _ _ _ ht
    · exact ht

theorem emitLoop_keeps (h0 : 0 < c) (n : Nat) (s : OMP) (new : List PB) (hs : Keeps V c s) :
    Out (fun _ => True) (fun r => Keeps V c r.1) (OMP.emitLoop o n s new) := by
  induction n generalizing s new with
  | zero => trivial
  | succ n ih =>
    unfold OMP.emitLoop
    refine (out_top _).bind ?_
    intro r _
    split
    · exact hs
    · simp only []
      split
      · trivial
      · refine (finishSiblings_keeps h0 _ _ (by exact hs.of_fin rfl)).bind ?_
        intro s' hs'
        exact (finAdd_keeps h0 _ _ (by exact hs'.of_fin rfl)).bind (fun s2 h2 => ih _ _ h2.tail)

theorem prepareEmit_keeps (h0 : 0 < c) (s : OMP) (new old : List PB) (hs : Keeps V c s) :
    Out (fun _ => True) (Keeps (((new.getLast?).map PB.hash).toList ++ V) c) (s.prepareEmit o new old) := by
  unfold OMP.prepareEmit
  refine Out.bind (P := Keeps (((new.getLast?).map PB.hash).toList ++ V) c) ?_
    (fun s1 h1 => (emitLoop_keeps h0 _ _ _ h1).bind (fun r hr => hr.of_fin rfl))
  unfold OMP.emitStart
  split
  · rename_i e; rw [e]; exact hs
  · rename_i e; rw [e]
    simp only []
    exact (finishSiblings_keeps h0 _ _ (by exact hs.of_fin rfl)).bind (fun s' h' => finAdd_keeps h0 _ _ h')

theorem Keeps.drop {U : List Hash} {s : OMP} (hs : Keeps (U ++ V) c s) : Keeps V c s :=
  ⟨hs.cap, hs.nodup, hs.len, hs.has.imp (fun h x hx => h x (by simp [hx])) id⟩

theorem handleAux_keeps (h0 : 0 < c) (n : Nat) (s : OMP) (pb : PB) (r : Bool) (hs : Keeps V c s) :
    Out (fun _ => True) (Keeps V c) (OMP.handleAux o n s pb r) := by
  induction n generalizing s pb r with
  | zero => trivial
  | succ n ih =>
    unfold OMP.handleAux
    split
    · exact hs.of_fin rfl
    · have hs1 : Keeps V c { s with pending := s.pending.insert pb.hash pb } := hs.of_fin rfl
      unfold OMP.accept
      split
      · exact hs1
      split
      · exact (prepareEmit_keeps h0 _ _ _ hs1).imp (fun _ h => h.drop)
      split
      · exact (prepareEmit_keeps h0 _ _ _ hs1).imp (fun _ h => h.drop)
      split
      · unfold OMP.onConnected
        split
        · refine (out_top _).bind ?_
          intro x _
          split
          · exact (prepareEmit_keeps h0 _ _ _ hs1).imp (fun _ h => h.drop)
          · exact hs1.of_fin rfl
          · exact hs1
        · refine (finAdd_keeps h0 _ _ hs1).bind ?_
          intro s2 h2
          refine (out_top _).bind ?_
          intro x _
          split
          · exact h2.tail.of_fin rfl
          · simp only []
            split
            · exact h2.tail.of_fin rfl
            · refine (ih _ _ _ (by exact h2.tail.of_fin rfl)).bind ?_
              intro s3 h3
              exact h3.of_fin rfl
      · unfold OMP.onUnconnected
        split
        · split
          · exact hs1.of_fin rfl
          · exact (finAdd_keeps h0 _ _ hs1).bind (fun s2 h2 => by exact h2.tail.of_fin rfl)
        · exact hs1.of_fin rfl

/-- The update sent, if any, adds to the head, or replaces blocks. -/
def Tame (s s' : OMP) : Prop :=
  (∃ l, OnlyEvicts l ∧ s'.log = s.log ++ l) ∨
    ∃ l a as r, OnlyEvicts l ∧ s'.log = s.log ++ l ++ [.update (a :: as) r] ∧ (r ≠ [] ∨ a.parentHash = s.lastHash)

/-- An update was sent whose first block connects to nothing, in an early phase that is shorter afterwards. -/
def Loose (c : Nat) (s s' : OMP) : Prop :=
  (∃ l a as, OnlyEvicts l ∧ s'.log = s.log ++ l ++ [.update (a :: as) []]) ∧ s.initEmpty = true ∧ s.finished.len < 10 ∧
    (s.finished.len + 1 ≤ s'.finished.len ∨ s'.finished.len = c)

theorem Tame.quiet {s s' : OMP} (h : s'.log = s.log) : Tame s s' := .inl ⟨[], OnlyEvicts.nil, by rw [h]; simp⟩

theorem Tame.after {s0 s s' : OMP} (h : Tame s s') (h1 : s.lastHash = s0.lastHash) (h2 : ∃ l, OnlyEvicts l ∧ s.log = s0.log ++ l) :
    Tame s0 s' := by
  obtain ⟨l0, h3, h4⟩ := h2
  rcases h with ⟨l, a, b⟩ | ⟨l, x, xs, r, a, b, d⟩
  · exact .inl ⟨l0 ++ l, h3.append a, by rw [b, h4, List.append_assoc]⟩
  · exact .inr ⟨l0 ++ l, x, xs, r, h3.append a, by rw [b, h4]; simp, by rw [← h1]; exact d⟩

theorem handleAux_tame (hH : Hashed D) (h0 : 0 < c) (n : Nat) (s : OMP) (pb : PB) (r : Bool) (hI : OInv D s)
    (hpb : s.excludes pb = false → D pb) (hc : s.finished.cap = c) (hn : s.finished.items.Nodup) (hl : s.finished.items.length ≤ c)
    (hr : r = true → pb.parentHash ∈ s.finished.items) :
    Out (fun _ => True) (fun s' => Tame s s' ∨ (r = false ∧ Loose c s s')) (OMP.handleAux o n s pb r) := by
  induction n generalizing s pb r with
  | zero => exact trivial
  | succ n ih =>
    unfold OMP.handleAux
    split
    · exact .inl (.quiet rfl)
    · rename_i he
      have hD := hpb (by simpa using he)
      have hI1 := hI.insert hD
      unfold OMP.accept
      split
      · exact .inl (.quiet rfl)
      rename_i hfin
      split
      · rename_i hp
        refine (prepareEmit_out _ [pb] [] hI1 (by simpa using hD)).imp ?_
        rintro s' ⟨ext, hs⟩
        obtain ⟨l, a, b⟩ := hs.log
        exact .inl (.inr ⟨l, pb, ext, [], a, b, .inr hp⟩)
      split
      · rename_i hi
        simp only [Bool.and_eq_true, Bool.not_eq_true', decide_eq_true_eq] at hi
        have hi3 : pb.parentHash ∉ s.finished.items := by
          have := hi.2; simpa [LRU.contains] using this
        have hr' : r = false := by
          cases r with
          | false => rfl
          | true => exact (hi3 (hr rfl)).elim
        have hnew : pb.hash ∉ s.finished.items := by
          subst hr'
          simpa [LRU.contains] using hfin
        refine ((prepareEmit_out _ [pb] [] hI1 (by simpa using hD)).and (prepareEmit_keeps (V := s.finished.items) h0
          _ [pb] [] ⟨hc, hn, hl, .inl (fun _ h => h)⟩)).mono (fun _ _ => trivial) ?_
        rintro s' ⟨⟨ext, hs⟩, hk⟩
        obtain ⟨l, a, b⟩ := hs.log
        refine .inr ⟨hr', ⟨l, pb, ext, a, b⟩, hi.1.1, hi.1.2, ?_⟩
        rcases hk.has with hv | hv
        · left
          exact nodup_length_le (l := pb.hash :: s.finished.items) (List.nodup_cons.mpr ⟨hnew, hn⟩) hv
        · exact .inr hv
      split
      · rename_i hpar
        unfold OMP.onConnected
        split
        · rename_i lastBlock hlast hw2
          obtain ⟨k1, k2⟩ := hI1.pend _ _ hlast
          refine (prepareReorg_out hI1.pendKeys pb lastBlock).bind ?_
          intro x r1
          split
          · rename_i removed added
            obtain ⟨p, hk⟩ := r1 _ _ rfl
            obtain ⟨pre, hpre⟩ := hk.last
            have ha : ∀ b ∈ added, D b := by
              intro b hb
              rcases hk.addedIn b hb with e | ⟨x, e⟩
              · exact e ▸ hD
              · exact (hI1.pend _ _ e).2
            refine (prepareEmit_out _ added removed hI1 ha).imp ?_
            rintro s' ⟨ext, hs⟩
            left
            cases hadd : added with
            | nil => rw [hadd] at hpre; simp at hpre
            | cons a as =>
              rw [hadd] at hs
              obtain ⟨l, u, v⟩ := hs.log
              refine .inr ⟨l, a, as ++ ext, removed, u, by simpa using v, ?_⟩
              by_cases hrm : removed = []
              · right
                have ht := hk.tip
                have hup := hk.up
                rw [hadd] at hup
                rw [hrm] at ht
                simp only [endOf] at ht
                exact hup.1.trans (ht.trans k1)
              · exact .inl hrm
          · exact .inl (.quiet rfl)
          · exact .inl (.quiet rfl)
        · refine ((finAdd_shrink o { s with pending := s.pending.insert pb.hash pb } (h := pb.hash) (F := Known D) ⟨pb, hD, rfl⟩).and
            (finAdd_fin _ pb.hash)).mono (E' := fun _ => True) (fun _ _ => trivial) (fun _ h => h) |>.bind ?_
          rintro s2 ⟨h2, e2⟩
          refine (getPendingChild_out s2 pb.hash).bind (fun x hx => ?_)
          split
          · exact .inl (.inl h2.logs)
          · rename_i ch
            simp only []
            split
            · exact .inl (.inl h2.logs)
            · rename_i cb hcb
              have hI2 := hI1.shrink h2
              obtain ⟨q, hq, hx⟩ := hx
              have hch := hI2.child hH hq hx hcb
              have hcap : s2.finished.cap = c := h2.cap.trans hc
              refine (ih { s2 with tick := s2.tick + 1 } cb true (hI2.of_maps rfl rfl) (fun _ => hch.2.2.1) hcap ?_ ?_ ?_).bind ?_
              · show s2.finished.items.Nodup
                rw [e2]; exact add_nodup hn
              · show s2.finished.items.length ≤ c
                rw [e2, ← hc]; exact LRU.length_add_le _ _ (by rw [hc]; exact hl)
              · intro _
                show cb.parentHash ∈ s2.finished.items
                rw [hch.1, e2]; exact LRU.mem_add_self _ _ (by rw [hc]; exact h0)
              · intro s3 h3
                rcases h3 with h3 | ⟨h3, _⟩
                · exact .inl (h3.after h2.lastHash h2.logs)
                · simp at h3
      · unfold OMP.onUnconnected
        split
        · split
          · exact .inl (.quiet rfl)
          · exact (finAdd_shrink o _ (F := Known D) ⟨pb, hD, rfl⟩).bind (fun s2 h2 => .inl (.inl h2.logs))
        · exact .inl (.quiet rfl)

/-- Nothing waits. -/
def NoneWaits (s : OMP) : Prop := ∀ h, s.queued.get? h = none

/-- A block that is on top of the head, or connects to nothing in the early phase, is sent at once when nothing waits. -/
theorem handle_alone {s : OMP} {pb : PB} (hq : NoneWaits s) (hk : PendKeys s) (he : s.excludes pb = false)
    (hn : pb.hash ∉ s.finished.items) (hp : pb.parentHash = s.lastHash ∨
      (s.initEmpty = true ∧ s.finished.len < 10 ∧ pb.parentHash ∉ s.finished.items)) :
    ∃ s', s.handle o pb = .ok s' ∧ NoneWaits s' ∧ PendKeys s' ∧ s'.lastHash = pb.hash ∧ s'.finished = (s.finished.add pb.hash).1 ∧
      s'.initEmpty = s.initEmpty ∧ s'.whitelist = s.whitelist ∧ s'.blacklist = s.blacklist ∧
      s'.updates = s.updates ++ [([pb], [])] := by
  let s1 : OMP := { s with pending := s.pending.insert pb.hash pb }
  have hemit : s.handle o pb = s1.prepareEmit o [pb] [] := by
    unfold OMP.handle OMP.handleAux
    rw [if_neg (by simp [he])]
    unfold OMP.accept
    rw [if_neg (by simpa [LRU.contains] using hn)]
    rcases hp with hp | ⟨h1, h2, h3⟩
    · rw [if_pos hp]
    · by_cases hp : pb.parentHash = s.lastHash
      · rw [if_pos hp]
      · rw [if_neg hp, if_pos (by simp [h1, h2, LRU.contains, h3])]
  have hk1 : PendKeys { s1 with lastHash := pb.hash, lastWeight := pb.weight } := by
    intro h b hb
    simp only [s1, GMap.get?_insert] at hb
    split at hb
    · rename_i e; cases hb; exact e
    · exact hk _ _ hb
  have hsib : ({ s1 with lastHash := pb.hash, lastWeight := pb.weight } : OMP).finishSiblings o pb =
      .ok { s1 with lastHash := pb.hash, lastWeight := pb.weight } := by
    unfold OMP.finishSiblings
    have : ({ s1 with lastHash := pb.hash, lastWeight := pb.weight } : OMP).queued.get? pb.parentHash = none := hq _
    rw [this]
  obtain ⟨s2, e2, h2, f2⟩ := (((finAdd_out o { s1 with lastHash := pb.hash, lastWeight := pb.weight } (h := pb.hash)
    (F := fun _ => True) trivial hk1).and (finAdd_fin _ pb.hash)).mono (E' := fun _ => False) (fun _ h => h.1) (fun _ h => h)).total
  have hq2 : NoneWaits s2 := by
    intro h
    cases hx : s2.queued.get? h with
    | none => rfl
    | some q => exact ((hq h).symm.trans (h2.queued _ _ hx)).symm
  have hloop : s2.emitLoop o (s2.queued.size + 2) [pb] = .ok (s2, [pb]) := by
    unfold OMP.emitLoop OMP.getPendingChild
    rw [hq2]
    rfl
  refine ⟨{ s2 with log := s2.log ++ [.update [pb] []] }, ?_, hq2, h2.pendKeys hk1, h2.lastHash, f2, h2.initEmpty, h2.whitelist,
    h2.blacklist, ?_⟩
  · rw [hemit]
    unfold OMP.prepareEmit OMP.emitStart
    simp only [List.getLast?_singleton]
    show (do let s ← ({ s1 with lastHash := pb.hash, lastWeight := pb.weight } : OMP).finishSiblings o pb; s.finAdd o pb.hash) >>= _ = _
    rw [hsib]
    show OMP.finAdd o { s1 with lastHash := pb.hash, lastWeight := pb.weight } pb.hash >>= _ = _
    rw [e2]
    show (s2.emitLoop o (s2.queued.size + 2) [pb]) >>= _ = _
    rw [hloop]
    rfl
  · obtain ⟨l, hl, e⟩ := h2.logs
    have hl0 : ∀ f : OOut → Option (List PB × List PB), (∀ n, f (.evictOlder n) = none) → l.filterMap f = [] := by
      intro f hf
      rw [List.filterMap_eq_nil_iff]
      intro x hx
      obtain ⟨n, rfl⟩ := hl x hx
      exact hf n
    unfold OMP.updates
    simp only []
    rw [e, List.filterMap_append, List.filterMap_append, hl0 _ (fun _ => rfl), List.append_nil]
    rfl

end Verif
