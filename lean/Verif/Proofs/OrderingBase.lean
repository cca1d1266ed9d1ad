import Verif.Spec.Ordering
import Verif.Proofs.GMap
import Verif.Proofs.Produced
/-! Frame lemmas for the ordering layer. -/
namespace Verif
open Spec

/-- The outcome satisfies `P`, or is a fault satisfying `E`. -/
def Out {α : Type} (E : Fault → Prop) (P : α → Prop) : Except Fault α → Prop
  | .ok a => P a
  | .error f => E f

section Out
variable {α β : Type} {E E' : Fault → Prop} {P P' : α → Prop} {Q : β → Prop}

theorem Out.mono {x : Except Fault α} (h : Out E P x) (hE : ∀ f, E f → E' f) (hP : ∀ a, P a → P' a) : Out E' P' x := by
  cases x with
  | ok a => exact hP _ h
  | error f => exact hE _ h

theorem Out.imp {x : Except Fault α} (h : Out E P x) (hP : ∀ a, P a → P' a) : Out E P' x := h.mono (fun _ h => h) hP

theorem Out.and {x : Except Fault α} (h : Out E P x) (h' : Out E' P' x) :
    Out (fun f => E f ∧ E' f) (fun a => P a ∧ P' a) x := by
  cases x with
  | ok a => exact ⟨h, h'⟩
  | error f => exact ⟨h, h'⟩

theorem Out.bind {x : Except Fault α} {f : α → Except Fault β} (h : Out E P x) (hf : ∀ a, P a → Out E Q (f a)) :
    Out E Q (x >>= f) := by
  cases x with
  | ok a => exact hf _ h
  | error f => exact h

theorem Out.ok {x : Except Fault α} (h : Out E P x) {a : α} (hx : x = .ok a) : P a := by subst hx; exact h

theorem Out.total {x : Except Fault α} (h : Out (fun _ => False) P x) : ∃ a, x = .ok a ∧ P a := by
  cases x with
  | ok a => exact ⟨a, rfl, h⟩
  | error f => exact h.elim

theorem Out.foldlM {f : α → β → Except Fault α} {l : List β} (hf : ∀ s x, x ∈ l → P s → Out E P (f s x)) :
    ∀ {s : α}, P s → Out E P (l.foldlM f s) := by
  induction l with
  | nil => intro s h; exact h
  | cons a l ih =>
    intro s h
    rw [List.foldlM_cons]
    exact (hf s a (by simp) h).bind (fun s' h' => ih (fun s x hx => hf s x (by simp [hx])) h')

theorem out_top (x : Except Fault α) : Out (fun _ => True) (fun _ => True) x := by cases x <;> trivial

theorem bind_ok {x : Except Fault α} {f : α → Except Fault β} {b : β} :
    (x >>= f) = .ok b ↔ ∃ a, x = .ok a ∧ f a = .ok b := by
  cases x with
  | ok a => simp [bind, Except.bind]
  | error f => simp [bind, Except.bind]
end Out

/-- The maps of `s'` are parts of those of `s`. -/
def Sub {K V : Type} [DecidableEq K] (m' m : GMap K V) : Prop := ∀ k v, m'.get? k = some v → m.get? k = some v

theorem Sub.refl {K V : Type} [DecidableEq K] (m : GMap K V) : Sub m m := fun _ _ h => h

theorem Sub.trans {K V : Type} [DecidableEq K] {a b c : GMap K V} (h : Sub a b) (h' : Sub b c) : Sub a c :=
  fun k v hk => h' k v (h k v hk)

theorem Sub.erase {K V : Type} [DecidableEq K] (m : GMap K V) (k : K) : Sub (m.erase k) m := by
  intro x v h
  rw [GMap.get?_erase] at h
  split at h
  · simp at h
  · exact h

theorem Sub.keys {K V : Type} [DecidableEq K] {m' m : GMap K V} (h : Sub m' m) {k : K} (hk : k ∈ m'.keys) : k ∈ m.keys := by
  obtain ⟨v, hv⟩ := (GMap.mem_keys_iff _).mp hk
  exact (GMap.mem_keys_iff _).mpr ⟨v, h _ _ hv⟩

theorem Sub.size {K V : Type} [DecidableEq K] {m' m : GMap K V} (h : Sub m' m) : m'.size ≤ m.size := by
  have := nodup_length_le (l := m'.keys) (l' := m.keys) m'.nodup (fun _ hx => h.keys hx)
  simpa [GMap.keys, GMap.size] using this

/-- Evictions only. -/
def OnlyEvicts (l : List OOut) : Prop := ∀ x ∈ l, ∃ n, x = OOut.evictOlder n

theorem OnlyEvicts.append {l l' : List OOut} (h : OnlyEvicts l) (h' : OnlyEvicts l') : OnlyEvicts (l ++ l') := by
  intro x hx
  rcases List.mem_append.mp hx with h1 | h1
  · exact h x h1
  · exact h' x h1

theorem OnlyEvicts.nil : OnlyEvicts [] := by intro x hx; simp at hx

/-- `s'` comes from `s` by marking hashes in `F` as finished and evicting blocks. -/
structure Shrink (F : Hash → Prop) (s s' : OMP) : Prop where
  lastHash : s'.lastHash = s.lastHash
  lastWeight : s'.lastWeight = s.lastWeight
  reorgThreshold : s'.reorgThreshold = s.reorgThreshold
  whitelist : s'.whitelist = s.whitelist
  blacklist : s'.blacklist = s.blacklist
  initEmpty : s'.initEmpty = s.initEmpty
  pending : Sub s'.pending s.pending
  queued : Sub s'.queued s.queued
  cap : s'.finished.cap = s.finished.cap
  finished : ∀ h, h ∈ s'.finished.items → h ∈ s.finished.items ∨ F h
  log : ∃ l, s'.log = s.log ++ l ∧ OnlyEvicts l ∧ (l = [] → s'.pending = s.pending ∧ s'.queued = s.queued)

theorem Shrink.refl (F : Hash → Prop) (s : OMP) : Shrink F s s :=
  ⟨rfl, rfl, rfl, rfl, rfl, rfl, Sub.refl _, Sub.refl _, rfl, fun _ h => .inl h, [], by simp, OnlyEvicts.nil, fun _ => ⟨rfl, rfl⟩⟩

theorem Shrink.tick (F : Hash → Prop) (s : OMP) (n : Nat) : Shrink F s { s with tick := n } :=
  ⟨rfl, rfl, rfl, rfl, rfl, rfl, Sub.refl _, Sub.refl _, rfl, fun _ h => .inl h, [], by simp, OnlyEvicts.nil, fun _ => ⟨rfl, rfl⟩⟩

theorem Shrink.trans {F : Hash → Prop} {a b c : OMP} (h : Shrink F a b) (h' : Shrink F b c) : Shrink F a c where
  lastHash := h'.lastHash.trans h.lastHash
  lastWeight := h'.lastWeight.trans h.lastWeight
  reorgThreshold := h'.reorgThreshold.trans h.reorgThreshold
  whitelist := h'.whitelist.trans h.whitelist
  blacklist := h'.blacklist.trans h.blacklist
  initEmpty := h'.initEmpty.trans h.initEmpty
  pending := h'.pending.trans h.pending
  queued := h'.queued.trans h.queued
  cap := h'.cap.trans h.cap
  finished := by
    intro x hx
    rcases h'.finished x hx with h1 | h1
    · exact h.finished x h1
    · exact .inr h1
  log := by
    obtain ⟨l, e, ho, hn⟩ := h.log
    obtain ⟨l', e', ho', hn'⟩ := h'.log
    refine ⟨l ++ l', by rw [e', e, List.append_assoc], ho.append ho', ?_⟩
    intro hl
    obtain ⟨rfl, rfl⟩ := List.append_eq_nil_iff.mp hl
    exact ⟨(hn' rfl).1.trans (hn rfl).1, (hn' rfl).2.trans (hn rfl).2⟩

theorem Shrink.mono {F G : Hash → Prop} {s s' : OMP} (h : Shrink F s s') (hF : ∀ x, F x → G x) : Shrink G s s' :=
  { h with finished := fun x hx => (h.finished x hx).imp id (hF x) }

theorem mem_ord {o : MapOrder} {n : Nat} {V : Type} {m : GMap Hash V} {c : Hash} :
    c ∈ (o.ord n m.entries).map Prod.fst ↔ c ∈ m.keys :=
  ((o.perm n m.entries).map Prod.fst).mem_iff

/-- Eviction only shrinks. -/
theorem evictAux_shrink (o : MapOrder) (F : Hash → Prop) (n : Nat) (s : OMP) (h : Hash) :
    Out (fun _ => True) (Shrink F s) (OMP.evictAux o n s h) := by
  induction n generalizing s h with
  | zero => exact trivial
  | succ n ih =>
    unfold OMP.evictAux
    split
    · exact Shrink.refl F s
    · rename_i pb hp
      have key : ∀ s', Shrink F { s with pending := s.pending.erase pb.hash, log := s.log ++ [.evictOlder pb.number] } s' →
          ∀ q, Sub q s'.queued → Shrink F s { s' with queued := q } := by
        intro s' h q hq
        obtain ⟨l, e, ho, hn⟩ := h.log
        refine ⟨h.lastHash, h.lastWeight, h.reorgThreshold, h.whitelist, h.blacklist, h.initEmpty,
          h.pending.trans (Sub.erase _ _), hq.trans h.queued, h.cap, h.finished, .evictOlder pb.number :: l, ?_, ?_, by simp⟩
        · simp [e]
        · intro x hx
          rcases List.mem_cons.mp hx with h1 | h1
          · exact ⟨_, h1⟩
          · exact ho x h1
      simp only []
      refine (ih _ _).bind (fun s2 h2 => ?_)
      split
      · exact key s2 h2 _ (Sub.refl _)
      · rename_i children hc
        refine Out.bind (P := Shrink F { s with pending := s.pending.erase pb.hash, log := s.log ++ [.evictOlder pb.number] }) ?_ ?_
        · refine Out.foldlM ?_ (h2.trans (Shrink.tick F s2 _))
          intro s3 c _ h3
          split
          · exact h3
          · exact (ih _ _).imp (fun _ h => h3.trans h)
        · intro s4 h4
          exact key s4 h4 _ (Sub.erase _ _)

/-- Keys of `pending` are the hashes of the blocks. -/
def PendKeys (s : OMP) : Prop := ∀ h b, s.pending.get? h = some b → b.hash = h

theorem Shrink.pendKeys {F : Hash → Prop} {s s' : OMP} (h : Shrink F s s') (hk : PendKeys s) : PendKeys s' :=
  fun x b hx => hk x b (h.pending x b hx)

/-- Eviction ends. -/
theorem evictAux_total (o : MapOrder) (n : Nat) (s : OMP) (h : Hash) (hk : PendKeys s) (hn : s.pending.size < n) :
    Out (fun _ => False) (fun _ => True) (OMP.evictAux o n s h) := by
  induction n generalizing s h with
  | zero => omega
  | succ n ih =>
    unfold OMP.evictAux
    split
    · trivial
    · rename_i pb hp
      simp only []
      have hpk := hk _ _ hp
      have hsz : (s.pending.erase pb.hash).size + 1 = s.pending.size := by
        rw [hpk]; exact GMap.size_erase_of_some _ hp
      have hk1 : PendKeys { s with pending := s.pending.erase pb.hash, log := s.log ++ [.evictOlder pb.number] } :=
        fun x b hx => hk x b (Sub.erase _ _ _ _ hx)
      have h2 := ((ih { s with pending := s.pending.erase pb.hash, log := s.log ++ [.evictOlder pb.number] } pb.parentHash hk1
        (by simp only []; omega)).and (evictAux_shrink o (fun _ => True) n _ _)).mono (E' := fun _ => False)
        (fun _ h => h.1) (fun _ h => h.2)
      refine h2.bind (fun s2 h2 => ?_)
      split
      · trivial
      · rename_i children hc
        refine Out.bind (P := Shrink (fun _ => True) { s with pending := s.pending.erase pb.hash, log := s.log ++ [.evictOlder pb.number] })
          ?_ (fun _ _ => trivial)
        refine Out.foldlM ?_ (h2.trans (Shrink.tick _ s2 _))
        intro s3 c _ h3
        split
        · exact h3
        · have := h3.pending.size
          simp only [] at this
          exact ((ih s3 c (h3.pendKeys hk1) (by omega)).and (evictAux_shrink o (fun _ => True) n s3 c)).mono
            (fun _ h => h.1) (fun _ h => h3.trans h.2)

theorem finAdd_shrink (o : MapOrder) {F : Hash → Prop} (s : OMP) {h : Hash} (hF : F h) :
    Out (fun _ => True) (Shrink F s) (s.finAdd o h) := by
  unfold OMP.finAdd
  have h1 : Shrink F s { s with finished := (s.finished.add h).1 } :=
    ⟨rfl, rfl, rfl, rfl, rfl, rfl, Sub.refl _, Sub.refl _, LRU.add_cap _ _, fun x hx => by
      rcases LRU.mem_of_mem_add hx with e | e
      · exact .inr (e ▸ hF)
      · exact .inl e, [], by simp, OnlyEvicts.nil, fun _ => ⟨rfl, rfl⟩⟩
  simp only []
  split
  · exact h1
  · exact (evictAux_shrink o F _ _ _).imp (fun _ h => h1.trans h)

theorem finAdd_total (o : MapOrder) (s : OMP) (h : Hash) (hk : PendKeys s) :
    Out (fun _ => False) (fun _ => True) (s.finAdd o h) := by
  unfold OMP.finAdd
  simp only []
  split
  · trivial
  · exact evictAux_total o _ _ _ hk (by simp only []; omega)

/-- Marking a hash as finished ends, and only shrinks. -/
theorem finAdd_out (o : MapOrder) {F : Hash → Prop} (s : OMP) {h : Hash} (hF : F h) (hk : PendKeys s) :
    Out (fun _ => False) (Shrink F s) (s.finAdd o h) :=
  ((finAdd_total o s h hk).and (finAdd_shrink o s hF)).mono (fun _ h => h.1) (fun _ h => h.2)

end Verif
