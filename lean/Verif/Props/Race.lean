import Verif.Model.Race

/-
C115: maps that goroutines share are not accessed by two of them at a time when one writes.
-/

namespace Verif

/-- Two goroutines are accessing the map `m`, and one of them writes. -/
def Spec.RaceOn (s : RSys) (m : SMap) : Prop := ∃ (i j : Nat) (g h : RG) (w : Bool), i ≠ j ∧ s[i]? = some g ∧ s[j]? = some h ∧ g.inside = some (m, true) ∧ h.inside = some (m, w)

/-- Nothing can happen any more. -/
def Spec.RStuck (s : RSys) : Prop := ∀ u, ¬ RSys.Step s u

open Spec

/-- The maps that the lock of the waiter guards. -/
def SMap.guardedMap : SMap → Bool
  | .hashes | .numbers => true
  | _ => false

/-- From a mode on, a program locks before it accesses the maps of the waiter, to write if it writes them, unlocks what it has locked, and ends without the lock. -/
def disciplined : RMode → List RAct → Bool
  | .free, [] => true
  | _, [] => false
  | .free, .lock :: r => disciplined .write r
  | .free, .rlock :: r => disciplined .read r
  | .write, .unlock :: r => disciplined .free r
  | .read, .runlock :: r => disciplined .free r
  | .write, .acc _ _ :: r => disciplined .write r
  | .read, .acc m w :: r => (!(m.guardedMap && w)) && disciplined .read r
  | .free, .acc m _ :: r => (!m.guardedMap) && disciplined .free r
  | _, _ => false

/-- An access that has begun is covered by the lock. -/
def RG.covered (g : RG) : Prop := ∀ m w, g.inside = some (m, w) → m.guardedMap = true → g.mode ≠ .free ∧ (w = true → g.mode = .write)

structure RInv (s : RSys) : Prop where
  disc : ∀ (i : Nat) g, s[i]? = some g → disciplined g.mode g.todo = true
  cover : ∀ (i : Nat) g, s[i]? = some g → g.covered
  excl : ∀ (i j : Nat) g h, s[i]? = some g → s[j]? = some h → i ≠ j → g.mode = .write → h.mode = .free

theorem rset_get {s : RSys} {i j : Nat} {g h : RG} (hh : (s.set i g)[j]? = some h) : (j = i ∧ h = g) ∨ (j ≠ i ∧ s[j]? = some h) := by
  by_cases e : j = i
  · subst e
    have hlt : j < s.length := by simpa using (List.getElem?_eq_some_iff.mp hh).1
    rw [List.getElem?_set_self hlt] at hh
    cases hh
    exact .inl ⟨rfl, rfl⟩
  · rw [List.getElem?_set_ne (Ne.symm e)] at hh
    exact .inr ⟨e, hh⟩

/-- A change of one goroutine keeps the invariant when the goroutine keeps its part. -/
theorem rinv_set {s : RSys} (hv : RInv s) {i : Nat} {g' : RG} (h1 : disciplined g'.mode g'.todo = true) (h2 : g'.covered)
    (h3 : g'.mode = .write → ∀ (j : Nat) h, s[j]? = some h → j ≠ i → h.mode = .free)
    (h4 : g'.mode ≠ .free → ∀ (j : Nat) h, s[j]? = some h → j ≠ i → h.mode ≠ .write) : RInv (s.set i g') where
  disc := by
    intro j g hg
    rcases rset_get hg with ⟨rfl, rfl⟩ | ⟨_, hg⟩
    · exact h1
    · exact hv.disc j g hg
  cover := by
    intro j g hg
    rcases rset_get hg with ⟨rfl, rfl⟩ | ⟨_, hg⟩
    · exact h2
    · exact hv.cover j g hg
  excl := by
    intro j k g h hg hh hjk hw
    rcases rset_get hg with ⟨rfl, rfl⟩ | ⟨hj, hg1⟩ <;> rcases rset_get hh with ⟨rfl, rfl⟩ | ⟨hk, hh1⟩
    · exact absurd rfl hjk
    · exact h3 hw k h hh1 hk
    · cases hm : h.mode with
      | free => rfl
      | read => exact absurd hw (h4 (by rw [hm]; decide) j g hg1 hj)
      | write => exact absurd hw (h4 (by rw [hm]; decide) j g hg1 hj)
    · exact hv.excl j k g h hg1 hh1 hjk hw

theorem rinv_step {s u : RSys} (hv : RInv s) (hst : RSys.Step s u) : RInv u := by
  cases hst with
  | @lock i g rest hg ht hi hf =>
    have hd := hv.disc i g hg
    have hm := hf g (List.mem_of_getElem? hg)
    rw [ht, hm] at hd
    exact rinv_set hv hd (fun m w h => by cases h) (fun _ j h hh _ => hf h (List.mem_of_getElem? hh)) (fun _ j h hh _ => by rw [hf h (List.mem_of_getElem? hh)]; decide)
  | @rlock i g rest hg ht hi hf =>
    have hd := hv.disc i g hg
    have hm := hf g (List.mem_of_getElem? hg)
    rw [ht] at hd
    cases hmode : g.mode with
    | write => exact absurd hmode hm
    | read => rw [hmode] at hd; simp [disciplined] at hd
    | free =>
      rw [hmode] at hd
      exact rinv_set hv hd (fun m w h => by cases h) (fun h => by cases h) (fun _ j h hh _ => hf h (List.mem_of_getElem? hh))
  | @unlock i g rest hg ht hi hm =>
    have hd := hv.disc i g hg
    rw [ht, hm] at hd
    exact rinv_set hv hd (fun m w h => by cases h) (fun h => by cases h) (fun h => absurd rfl h)
  | @runlock i g rest hg ht hi hm =>
    have hd := hv.disc i g hg
    rw [ht, hm] at hd
    exact rinv_set hv hd (fun m w h => by cases h) (fun h => by cases h) (fun h => absurd rfl h)
  | @enter i g m w rest hg ht hi =>
    have hd := hv.disc i g hg
    rw [ht] at hd
    refine rinv_set hv ?_ ?_ (fun hw j h hh hj => hv.excl i j g h hg hh (Ne.symm hj) hw) (fun hne j h hh hj hw => hne (hv.excl j i h g hh hg hj hw))
    · cases hmode : g.mode <;> rw [hmode] at hd <;> simp [disciplined] at hd <;> simp [hd]
    · intro m' w' he hgm
      cases he
      dsimp only
      cases hmode : g.mode with
      | free => rw [hmode] at hd; simp [disciplined, hgm] at hd
      | read => rw [hmode] at hd; simp [disciplined, hgm] at hd; exact ⟨by decide, fun h => by rw [hd.1] at h; cases h⟩
      | write => exact ⟨by decide, fun _ => rfl⟩
  | @exit i g a hg hi =>
    have hd := hv.disc i g hg
    exact rinv_set hv hd (fun m w h => by cases h) (fun hw j h hh hj => hv.excl i j g h hg hh (Ne.symm hj) hw)
      (fun hne j h hh hj hw => hne (hv.excl j i h g hh hg hj hw))

theorem rinit_get {ps : List (List RAct)} {i : Nat} {g : RG} (h : (RSys.init ps)[i]? = some g) : ∃ p, ps[i]? = some p ∧ g = .start p := by
  simp only [RSys.init, List.getElem?_map, Option.map_eq_some_iff] at h
  obtain ⟨p, hp, e⟩ := h
  exact ⟨p, hp, e.symm⟩

theorem rinv_init {ps : List (List RAct)} (h : ∀ p, p ∈ ps → disciplined .free p = true) : RInv (.init ps) where
  disc := by
    intro i g hg
    obtain ⟨p, hp, rfl⟩ := rinit_get hg
    exact h p (List.mem_of_getElem? hp)
  cover := by
    intro i g hg m w hi
    obtain ⟨p, hp, rfl⟩ := rinit_get hg
    cases hi
  excl := by
    intro i j g h' hg hh _ hw
    obtain ⟨p, hp, rfl⟩ := rinit_get hg
    cases hw

theorem rinv_steps {s t : RSys} (hv : RInv s) (h : RSys.Steps s t) : RInv t := by
  induction h with
  | refl => exact hv
  | step _ hst ih => exact rinv_step ih hst

/-- With the discipline there is no race on the maps of the waiter. -/
theorem rinv_norace {s : RSys} (hv : RInv s) {m : SMap} (hm : m.guardedMap = true) : ¬ RaceOn s m := by
  rintro ⟨i, j, g, h, w, hij, hg, hh, h1, h2⟩
  have a := (hv.cover i g hg m true h1 hm).2 rfl
  have b := (hv.cover j h hh m w h2 hm).1
  exact b (hv.excl i j g h hg hh hij a)

/-- With the discipline goroutines get to the end of their programs: in a final state nobody has anything to do, and nobody holds the lock. -/
theorem rstuck_end {s : RSys} (hv : RInv s) (hs : RStuck s) : ∀ g, g ∈ s → g = ⟨[], none, .free⟩ := by
  have noin : ∀ (i : Nat) g, s[i]? = some g → g.inside = none := by
    intro i g hg
    cases hi : g.inside with
    | none => rfl
    | some a => exact absurd (.exit hg hi) (hs _)
  -- a goroutine that holds the lock can go on
  have free : ∀ (i : Nat) g, s[i]? = some g → g.mode = .free := by
    intro i g hg
    have hd := hv.disc i g hg
    have hi := noin i g hg
    cases hm : g.mode with
    | free => rfl
    | write =>
      exfalso
      cases ht : g.todo with
      | nil => rw [hm, ht] at hd; cases hd
      | cons a rest =>
        rw [hm, ht] at hd
        cases a with
        | acc m w => exact hs _ (.enter hg ht hi)
        | unlock => exact hs _ (.unlock hg ht hi hm)
        | lock => cases hd
        | rlock => cases hd
        | runlock => cases hd
    | read =>
      exfalso
      cases ht : g.todo with
      | nil => rw [hm, ht] at hd; cases hd
      | cons a rest =>
        rw [hm, ht] at hd
        cases a with
        | acc m w => exact hs _ (.enter hg ht hi)
        | runlock => exact hs _ (.runlock hg ht hi hm)
        | lock => cases hd
        | rlock => cases hd
        | unlock => cases hd
  intro g hmem
  obtain ⟨i, hg⟩ := List.getElem?_of_mem hmem
  have hi := noin i g hg
  have hm := free i g hg
  have hall : ∀ h, h ∈ s → h.mode = .free := fun h hh => by obtain ⟨j, hj⟩ := List.getElem?_of_mem hh; exact free j h hj
  have ht : g.todo = [] := by
    cases ht : g.todo with
    | nil => rfl
    | cons a rest =>
      exfalso
      have hd := hv.disc i g hg
      rw [hm, ht] at hd
      cases a with
      | acc m w => exact hs _ (.enter hg ht hi)
      | lock => exact hs _ (.lock hg ht hi hall)
      | rlock => exact hs _ (.rlock hg ht hi (fun h hh => by rw [hall h hh]; decide))
      | unlock => cases hd
      | runlock => cases hd
  cases g
  simp only at hi hm ht
  subst hi hm ht
  rfl

/-- Programs one after the other. -/
theorem disciplined_append {p q : List RAct} {mode : RMode} (hp : disciplined mode p = true) (hq : disciplined .free q = true) : disciplined mode (p ++ q) = true := by
  induction p generalizing mode with
  | nil => cases mode <;> first | exact hq | cases hp
  | cons a p ih =>
    cases mode <;> cases a <;> simp only [disciplined, List.cons_append, Bool.and_eq_true, reduceCtorEq] at hp ⊢
    all_goals first | exact ih hp | exact ⟨hp.1, ih hp.2⟩ | (cases hp)

theorem disciplined_waiter {p : List RAct} (h : WaiterProg p) : disciplined .free p = true := by
  obtain ⟨ss, rfl⟩ := h
  induction ss with
  | nil => rfl
  | cons a ss ih =>
    rw [List.flatMap_cons]
    refine disciplined_append ?_ ih
    cases a with
    | announce known => cases known <;> rfl
    | _ => rfl

theorem disciplined_free {p : List RAct} (h : ∀ a, a ∈ p → ∃ m w, a = .acc m w ∧ m.guardedMap = false) : disciplined .free p = true := by
  induction p with
  | nil => rfl
  | cons a p ih =>
    obtain ⟨m, w, rfl, hm⟩ := h a (by simp)
    simp only [disciplined, hm, Bool.not_false, Bool.true_and]
    exact ih (fun b hb => h b (List.mem_cons_of_mem _ hb))

/-- What a goroutine accesses is in its program. -/
theorem rsteps_prog {ps : List (List RAct)} {s : RSys} (h : RSys.Steps (.init ps) s) :
    ∀ (i : Nat) g, s[i]? = some g → ∃ p, ps[i]? = some p ∧ (∀ a, a ∈ g.todo → a ∈ p) ∧ ∀ m w, g.inside = some (m, w) → .acc m w ∈ p := by
  induction h with
  | refl =>
    intro i g hg
    obtain ⟨p, hp, rfl⟩ := rinit_get hg
    exact ⟨p, hp, fun a ha => ha, fun m w hi => by cases hi⟩
  | step _ hst ih =>
    intro j h hh
    cases hst with
    | lock hg ht hi =>
      rcases rset_get hh with ⟨rfl, rfl⟩ | ⟨_, hh⟩
      · obtain ⟨p, hp, h1, h2⟩ := ih _ _ hg
        exact ⟨p, hp, fun a ha => h1 a (by rw [ht]; exact List.mem_cons_of_mem _ ha), fun m w hi => by cases hi⟩
      · exact ih j h hh
    | rlock hg ht hi =>
      rcases rset_get hh with ⟨rfl, rfl⟩ | ⟨_, hh⟩
      · obtain ⟨p, hp, h1, h2⟩ := ih _ _ hg
        exact ⟨p, hp, fun a ha => h1 a (by rw [ht]; exact List.mem_cons_of_mem _ ha), fun m w hi => by cases hi⟩
      · exact ih j h hh
    | unlock hg ht hi =>
      rcases rset_get hh with ⟨rfl, rfl⟩ | ⟨_, hh⟩
      · obtain ⟨p, hp, h1, h2⟩ := ih _ _ hg
        exact ⟨p, hp, fun a ha => h1 a (by rw [ht]; exact List.mem_cons_of_mem _ ha), fun m w hi => by cases hi⟩
      · exact ih j h hh
    | runlock hg ht hi =>
      rcases rset_get hh with ⟨rfl, rfl⟩ | ⟨_, hh⟩
      · obtain ⟨p, hp, h1, h2⟩ := ih _ _ hg
        exact ⟨p, hp, fun a ha => h1 a (by rw [ht]; exact List.mem_cons_of_mem _ ha), fun m w hi => by cases hi⟩
      · exact ih j h hh
    | enter hg ht hi =>
      rcases rset_get hh with ⟨rfl, rfl⟩ | ⟨_, hh⟩
      · obtain ⟨p, hp, h1, h2⟩ := ih _ _ hg
        exact ⟨p, hp, fun a ha => h1 a (by rw [ht]; exact List.mem_cons_of_mem _ ha), fun m w hi => by cases hi; exact h1 _ (by rw [ht]; simp)⟩
      · exact ih j h hh
    | exit hg hi =>
      rcases rset_get hh with ⟨rfl, rfl⟩ | ⟨_, hh⟩
      · obtain ⟨p, hp, h1, h2⟩ := ih _ _ hg
        exact ⟨p, hp, h1, fun m w hi => by cases hi⟩
      · exact ih j h hh

/-- A map that one goroutine alone accesses has no race. -/
theorem rowner {ps : List (List RAct)} {s : RSys} (h : RSys.Steps (.init ps) s) {m : SMap} {k : Nat}
    (hown : ∀ (i : Nat) p w, ps[i]? = some p → .acc m w ∈ p → i = k) : ¬ RaceOn s m := by
  rintro ⟨i, j, g, h', w, hij, hg, hh, h1, h2⟩
  obtain ⟨p, hp, _, hpi⟩ := rsteps_prog h i g hg
  obtain ⟨q, hq, _, hqi⟩ := rsteps_prog h j h' hh
  have a := hown i p true hp (hpi m true h1)
  have b := hown j q w hq (hqi m w h2)
  exact hij (a.trans b.symm)

theorem waiter_acc {p : List RAct} (h : WaiterProg p) {m : SMap} {w : Bool} (hm : .acc m w ∈ p) : m.guardedMap = true := by
  obtain ⟨ss, rfl⟩ := h
  rw [List.mem_flatMap] at hm
  obtain ⟨a, _, ha⟩ := hm
  cases m with
  | hashes => rfl
  | numbers => rfl
  | _ =>
    exfalso
    cases a with
    | announce known => cases known <;> simp [WSection.code] at ha
    | _ => simp [WSection.code] at ha

/-- **C115**, the waiter: any number of goroutines that run any sections of it never access one of its maps at a time when one of them writes. -/
theorem C115_waiter {ps : List (List RAct)} (hps : ∀ p, p ∈ ps → WaiterProg p) {s : RSys} (h : RSys.Steps (.init ps) s) (m : SMap) : ¬ RaceOn s m := by
  have hv := rinv_steps (rinv_init (fun p hp => disciplined_waiter (hps p hp))) h
  cases hm : m.guardedMap with
  | true => exact rinv_norace hv hm
  | false =>
    rintro ⟨i, j, g, h', w, hij, hg, hh, h1, h2⟩
    obtain ⟨p, hp, _, hpi⟩ := rsteps_prog h i g hg
    have := waiter_acc (hps p (List.mem_of_getElem? hp)) (hpi m true h1)
    rw [hm] at this
    cases this

/-- **C115**, the waiter: and they get to the end of their sections, all of them, with the lock given back. -/
theorem C115_waiter_ends {ps : List (List RAct)} (hps : ∀ p, p ∈ ps → WaiterProg p) {s : RSys} (h : RSys.Steps (.init ps) s) (hs : RStuck s) :
    ∀ g, g ∈ s → g = ⟨[], none, .free⟩ :=
  rstuck_end (rinv_steps (rinv_init (fun p hp => disciplined_waiter (hps p hp))) h) hs

/-- **C115**, one transport: with one goroutine that processes messages (or the batches of a websocket), one that orders blocks, one that notes heartbeats, and any number that
run sections of the waiter, there is no race. -/
theorem C115_one_transport {d o b : List RAct} {ws : List (List RAct)} (hd : DispatcherProg d) (ho : OrderingProg o) (hb : HeartbeatProg b) (hws : ∀ p, p ∈ ws → WaiterProg p)
    {s : RSys} (h : RSys.Steps (.init (d :: o :: b :: ws)) s) (m : SMap) : ¬ RaceOn s m := by
  have hdisc : ∀ p, p ∈ d :: o :: b :: ws → disciplined .free p = true := by
    intro p hp
    simp only [List.mem_cons] at hp
    rcases hp with rfl | rfl | rfl | hp
    · refine disciplined_free (fun a ha => ?_)
      obtain ⟨m, w, e, hm⟩ := hd a ha
      exact ⟨m, w, e, by cases m <;> first | rfl | cases hm⟩
    · refine disciplined_free (fun a ha => ?_)
      obtain ⟨m, w, e, hm⟩ := ho a ha
      exact ⟨m, w, e, by cases m <;> first | rfl | cases hm⟩
    · exact disciplined_free (fun a ha => ⟨.pings, true, hb a ha, rfl⟩)
    · exact disciplined_waiter (hws p hp)
  cases hm : m.guardedMap with
  | true => exact rinv_norace (rinv_steps (rinv_init hdisc) h) hm
  | false =>
    -- who accesses the map, by its kind
    have who : ∀ (i : Nat) p w, (d :: o :: b :: ws)[i]? = some p → .acc m w ∈ p →
        i = (if m.ofMp = true then 0 else if m.ofOmp = true then 1 else 2) := by
      intro i p w hp ha
      match i, hp with
      | 0, hp =>
        cases hp
        obtain ⟨m', w', e, hm'⟩ := hd _ ha
        cases e
        rw [if_pos hm']
      | 1, hp =>
        cases hp
        obtain ⟨m', w', e, hm'⟩ := ho _ ha
        cases e
        rw [if_neg (by cases m <;> first | (cases hm'; done) | decide), if_pos hm']
      | 2, hp =>
        cases hp
        have e := hb _ ha
        cases e
        rfl
      | k + 3, hp =>
        have := waiter_acc (hws p (List.mem_of_getElem? (by simpa using hp))) ha
        rw [hm] at this
        cases this
    exact rowner h who

/-! ## When there are races -/

theorem RSys.Steps.trans {s t u : RSys} (h1 : Steps s t) (h2 : Steps t u) : Steps s u := by
  induction h2 with
  | refl => exact h1
  | step _ hst ih => exact .step ih hst

/-- A goroutine without locks gets to any of its accesses, whatever the others do. -/
theorem rrun {a b : List RAct} {m : SMap} {w : Bool} (ha : ∀ x, x ∈ a → ∃ m w, x = .acc m w) {s : RSys} {i : Nat} {mode : RMode}
    (hg : s[i]? = some ⟨a ++ .acc m w :: b, none, mode⟩) : RSys.Steps s (s.set i ⟨b, some (m, w), mode⟩) := by
  induction a generalizing s with
  | nil => exact .step .refl (.enter hg rfl rfl)
  | cons x a ih =>
    obtain ⟨m', w', rfl⟩ := ha x (by simp)
    have hlt := (List.getElem?_eq_some_iff.mp hg).1
    have e1 : RSys.Step s (s.set i ⟨a ++ .acc m w :: b, some (m', w'), mode⟩) := .enter hg rfl rfl
    have e2 : RSys.Step (s.set i ⟨a ++ .acc m w :: b, some (m', w'), mode⟩) ((s.set i ⟨a ++ .acc m w :: b, some (m', w'), mode⟩).set i ⟨a ++ .acc m w :: b, none, mode⟩) :=
      .exit (List.getElem?_set_self hlt) rfl
    rw [List.set_set] at e2
    have e3 := ih (s := s.set i ⟨a ++ .acc m w :: b, none, mode⟩) (fun x hx => ha x (List.mem_cons_of_mem _ hx)) (List.getElem?_set_self hlt)
    rw [List.set_set] at e3
    exact ((RSys.Steps.refl.step e1).step e2).trans e3

/-- **C115**, without locks: there can be a race on a map if and only if two goroutines access it, one of them to write. -/
theorem C115_iff {ps : List (List RAct)} (hps : ∀ p, p ∈ ps → ∀ a, a ∈ p → ∃ m w, a = .acc m w) (m : SMap) :
    (∃ s, RSys.Steps (.init ps) s ∧ RaceOn s m) ↔ ∃ (i j : Nat) (p q : List RAct) (w : Bool), i ≠ j ∧ ps[i]? = some p ∧ ps[j]? = some q ∧ .acc m true ∈ p ∧ .acc m w ∈ q := by
  constructor
  · rintro ⟨s, h, i, j, g, h', w, hij, hg, hh, h1, h2⟩
    obtain ⟨p, hp, _, hpi⟩ := rsteps_prog h i g hg
    obtain ⟨q, hq, _, hqi⟩ := rsteps_prog h j h' hh
    exact ⟨i, j, p, q, w, hij, hp, hq, hpi m true h1, hqi m w h2⟩
  · rintro ⟨i, j, p, q, w, hij, hp, hq, h1, h2⟩
    obtain ⟨a, b, rfl⟩ := List.append_of_mem h1
    obtain ⟨c, d, rfl⟩ := List.append_of_mem h2
    have gi : (RSys.init ps)[i]? = some ⟨a ++ .acc m true :: b, none, .free⟩ := by simp [RSys.init, hp, RG.start]
    have gj : (RSys.init ps)[j]? = some ⟨c ++ .acc m w :: d, none, .free⟩ := by simp [RSys.init, hq, RG.start]
    have r1 := rrun (fun x hx => hps _ (List.mem_of_getElem? hp) x (List.mem_append_left _ hx)) gi
    have gj' : ((RSys.init ps).set i ⟨b, some (m, true), .free⟩)[j]? = some ⟨c ++ .acc m w :: d, none, .free⟩ := by rw [List.getElem?_set_ne hij]; exact gj
    have r2 := rrun (fun x hx => hps _ (List.mem_of_getElem? hq) x (List.mem_append_left _ hx)) gj'
    refine ⟨_, r1.trans r2, i, j, ⟨b, some (m, true), .free⟩, ⟨d, some (m, w), .free⟩, w, hij, ?_, ?_, rfl, rfl⟩
    · rw [List.getElem?_set_ne (Ne.symm hij), List.getElem?_set_self (List.getElem?_eq_some_iff.mp gi).1]
    · exact List.getElem?_set_self (List.getElem?_eq_some_iff.mp gj').1

theorem acc_of_ofMp {p : List RAct} (h : DispatcherProg p) : ∀ a, a ∈ p → ∃ m w, a = .acc m w := fun a ha => by
  obtain ⟨m, w, e, _⟩ := h a ha
  exact ⟨m, w, e⟩

/-- Two goroutines without locks. -/
theorem race_two {p q : List RAct} {m : SMap} {w : Bool} (hp : ∀ a, a ∈ p → ∃ m w, a = .acc m w) (hq : ∀ a, a ∈ q → ∃ m w, a = .acc m w) (h1 : .acc m true ∈ p) (h2 : .acc m w ∈ q) :
    ∃ s, RSys.Steps (.init [p, q]) s ∧ RaceOn s m := by
  refine (C115_iff (fun x hx => ?_) m).mpr ⟨0, 1, p, q, w, by decide, rfl, rfl, h1, h2⟩
  simp only [List.mem_cons, List.not_mem_nil, or_false] at hx
  rcases hx with rfl | rfl
  · exact hp
  · exact hq

/-- **C115** does not hold for two Kafka consumers of a multiplexer, nor for a Kafka consumer and the nested consumer of a reorg topic that has not stopped: whatever messages they
process, if each processes one, one may write `resumption` while the other reads it. -/
theorem C115_two_dispatchers_refuted {p q : List RAct} (hp : DispatcherProg p) (hq : DispatcherProg q) :
    ∃ s, RSys.Steps (.init [processBegin ++ p, processBegin ++ q]) s ∧ RaceOn s .mpResumption := by
  refine race_two (w := false) (acc_of_ofMp ?_) (acc_of_ofMp ?_) (by simp [processBegin]) (by simp [processBegin])
  · intro a ha
    rcases List.mem_append.mp ha with h | h
    · simp only [processBegin, List.mem_cons, List.not_mem_nil, or_false] at h
      rcases h with rfl | rfl <;> exact ⟨_, _, rfl, rfl⟩
    · exact hp a h
  · intro a ha
    rcases List.mem_append.mp ha with h | h
    · simp only [processBegin, List.mem_cons, List.not_mem_nil, or_false] at h
      rcases h with rfl | rfl <;> exact ⟨_, _, rfl, rfl⟩
    · exact hq a h

theorem processHeader_acc : ∀ a, a ∈ processHeader → ∃ m w, a = .acc m w := by
  intro a ha
  simp only [processHeader, processBegin, List.cons_append, List.nil_append, List.mem_cons, List.not_mem_nil, or_false] at ha
  rcases ha with rfl | rfl | rfl | rfl | rfl | rfl | rfl | rfl | rfl <;> exact ⟨_, _, rfl⟩

/-- **C115** does not hold for a Kafka consumer and a websocket of a multiplexer: a block of the one may be completed while the other notes a header. -/
theorem C115_kafka_websocket_refuted : ∃ s, RSys.Steps (.init [processHeader, processComplete]) s ∧ RaceOn s .mpPending :=
  race_two (w := true) processHeader_acc (fun a ha => by simp [processComplete] at ha; exact ⟨_, _, ha⟩) (by simp [processHeader, processBegin]) (by simp [processComplete])

/-- **C115** does not hold for two websockets of a multiplexer. -/
theorem C115_two_websockets_refuted : ∃ s, RSys.Steps (.init [processComplete, processComplete]) s ∧ RaceOn s .mpPending :=
  race_two (w := true) (fun a ha => by simp [processComplete] at ha; exact ⟨_, _, ha⟩) (fun a ha => by simp [processComplete] at ha; exact ⟨_, _, ha⟩) (by simp [processComplete])
    (by simp [processComplete])

/-- **C115** does not hold when a websocket reports a reorg while the ordering layer handles a block. -/
theorem C115_reorg_refuted : ∃ s, RSys.Steps (.init [handleReorgCode, handleBatchBegin]) s ∧ RaceOn s .ompLastHash :=
  race_two (w := false) (fun a ha => by simp [handleReorgCode] at ha; exact ⟨_, _, ha⟩)
    (fun a ha => by simp only [handleBatchBegin, List.mem_cons, List.not_mem_nil, or_false] at ha; rcases ha with rfl | rfl | rfl <;> exact ⟨_, _, rfl⟩)
    (by simp [handleReorgCode]) (by simp [handleBatchBegin])

/-- **C115** does not hold when producers are counted while a heartbeat is noted. -/
theorem C115_pings_refuted : ∃ s, RSys.Steps (.init [pingUpdate, pingCount]) s ∧ RaceOn s .pings :=
  race_two (w := false) (fun a ha => by simp [pingUpdate] at ha; exact ⟨_, _, ha⟩) (fun a ha => by simp [pingCount] at ha; exact ⟨_, _, ha⟩) (by simp [pingUpdate])
    (by simp [pingCount])

theorem whyNotReady_acc : ∀ a, a ∈ whyNotReadyCode → ∃ m w, a = .acc m w := by
  intro a ha
  simp only [whyNotReadyCode, List.mem_cons, List.not_mem_nil, or_false] at ha
  rcases ha with rfl | rfl <;> exact ⟨_, _, rfl⟩

/-- **C115** does not hold when `WhyNotReady` is called while a message is processed … -/
theorem C115_why_refuted : ∃ s, RSys.Steps (.init [processHeader, whyNotReadyCode]) s ∧ RaceOn s .mpPending :=
  race_two (w := false) processHeader_acc whyNotReady_acc (by simp [processHeader, processBegin]) (by simp [whyNotReadyCode])

/-- … or while a block is ordered. -/
theorem C115_why_ordering_refuted : ∃ s, RSys.Steps (.init [handleBatchBegin, whyNotReadyCode]) s ∧ RaceOn s .ompPending :=
  race_two (w := false) (fun a ha => by simp only [handleBatchBegin, List.mem_cons, List.not_mem_nil, or_false] at ha; rcases ha with rfl | rfl | rfl <;> exact ⟨_, _, rfl⟩)
    whyNotReady_acc (by simp [handleBatchBegin]) (by simp [whyNotReadyCode])

/-! ## Examples -/

/-- Two blocks announced and a lookup: programs of the waiter. -/
def exWaiters : List (List RAct) := [WSection.code (.announce false) ++ WSection.code (.announce true), WSection.code .byNumber, WSection.code .forget]

theorem exWaiters_ok : ∀ p, p ∈ exWaiters → WaiterProg p := by
  intro p hp
  simp only [exWaiters, List.mem_cons, List.not_mem_nil, or_false] at hp
  rcases hp with rfl | rfl | rfl
  · exact ⟨[.announce false, .announce true], rfl⟩
  · exact ⟨[.byNumber], rfl⟩
  · exact ⟨[.forget], rfl⟩

/-- The hypotheses of `C115_waiter` are met, by a state in which the first goroutine writes a map. -/
example : ∃ s : RSys, RSys.Steps (.init exWaiters) s ∧ (s[0]?.bind RG.inside) = some (.hashes, true) :=
  ⟨_, .step (.step .refl (.lock (i := 0) rfl rfl rfl (by decide))) (.enter (i := 0) rfl rfl rfl), rfl⟩

/-- The hypotheses of `C115_waiter_ends`: the end is reached. -/
example : ∃ s : RSys, RSys.Steps (.init [WSection.code .byHash]) s ∧ RStuck s := by
  refine ⟨_, .step (.step (.step (.step .refl (.rlock (i := 0) rfl rfl rfl (by decide))) (.enter (i := 0) rfl rfl rfl)) (.exit (i := 0) rfl rfl)) (.runlock (i := 0) rfl rfl rfl rfl), ?_⟩
  intro u hu
  cases hu with
  | @lock i g rest h1 h2 => match i, h1 with | 0, h1 => cases h1; cases h2
  | @rlock i g rest h1 h2 => match i, h1 with | 0, h1 => cases h1; cases h2
  | @unlock i g rest h1 h2 => match i, h1 with | 0, h1 => cases h1; cases h2
  | @runlock i g rest h1 h2 => match i, h1 with | 0, h1 => cases h1; cases h2
  | @enter i g m w rest h1 h2 => match i, h1 with | 0, h1 => cases h1; cases h2
  | @exit i g a h1 h2 => match i, h1 with | 0, h1 => cases h1; cases h2

/-- The hypotheses of `C115_one_transport`. -/
example : DispatcherProg processHeader ∧ OrderingProg handleBatchBegin ∧ HeartbeatProg (pingUpdate ++ pingUpdate) ∧ DispatcherProg processComplete := by
  refine ⟨?_, ?_, ?_, ?_⟩
  · intro a ha
    simp only [processHeader, processBegin, List.cons_append, List.nil_append, List.mem_cons, List.not_mem_nil, or_false] at ha
    rcases ha with rfl | rfl | rfl | rfl | rfl | rfl | rfl | rfl | rfl <;> exact ⟨_, _, rfl, rfl⟩
  · intro a ha
    simp only [handleBatchBegin, List.mem_cons, List.not_mem_nil, or_false] at ha
    rcases ha with rfl | rfl | rfl <;> exact ⟨_, _, rfl, rfl⟩
  · intro a ha
    simpa [pingUpdate] using ha
  · intro a ha
    simp only [processComplete, List.mem_cons, List.not_mem_nil, or_false] at ha
    exact ⟨_, _, ha, rfl⟩

/-- The hypotheses of `C115_iff`, and a map on which there is no race: the two goroutines only read it. -/
example : ¬ ∃ s, RSys.Steps (.init [pingCount, pingCount]) s ∧ RaceOn s .pings := by
  rw [C115_iff (fun p hp a ha => ?_)]
  · rintro ⟨i, j, p, q, w, _, hp, _, h1, _⟩
    match i, hp with
    | 0, hp => cases hp; simp [pingCount] at h1
    | 1, hp => cases hp; simp [pingCount] at h1
  · simp only [List.mem_cons, List.not_mem_nil, or_false, or_self] at hp
    subst hp
    simp [pingCount] at ha
    exact ⟨_, _, ha⟩

end Verif
