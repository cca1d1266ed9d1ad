import Verif.Props.Below
import Verif.Props.Moment
import Verif.Proofs.OrderingStrays
/-! # C131: the whole consumer, restarted, and forks from below the stored block -/
namespace Verif

/-- Of the messages of the block some message that the consumer waits for is not among those received. -/
def Spec.Incomplete (tracked : GoStr → Bool) (s : SentBlock) (received : List RMsg) : Prop :=
  ∃ x ∈ s.msgs, Matters tracked s.schema s.args x.key ∧ ∀ m ∈ received, m.key ≠ x.key

/-- A tree of blocks that contains the stored block `stored`; `root` is at or below it. There are other blocks. -/
structure Spec.HeadersBelow (cfg : Config) (root stored : SentBlock) (tree others : List SentBlock) : Prop where
  mem : root ∈ tree
  low : root.args.parentHash ∉ tree.map (·.args.hash)
  /-- all others have their parents in the tree -/
  parents : ∀ s ∈ tree, s = root ∨ ∃ p ∈ tree, p.args.hash = s.args.parentHash
  /-- parents are lighter and one lower -/
  numbers : ∀ s ∈ tree ++ others, ∀ p ∈ tree ++ others, p.args.hash = s.args.parentHash → s.args.number = p.args.number + 1 ∧ p.args.weight < s.args.weight
  siblings : ∀ s ∈ tree ++ others, ∀ t ∈ tree ++ others, s.args.parentHash = t.args.parentHash → s.args.number = t.args.number
  heavy : ∀ s ∈ tree ++ others, 0 < s.args.weight
  /-- hashes do not collide -/
  distinct : (Hash.zero :: (tree ++ others).map (·.args.hash)).Nodup
  /-- the whitelist does not forbid them -/
  whitelist : ∀ s ∈ tree ++ others, ∀ h, cfg.whitelist.get? (heightKey s.args.number) = some h → h = s.args.hash
  /-- the stored block is one of the tree -/
  inTree : stored ∈ tree
  hash : stored.args.hash = cfg.lastHash
  weight : stored.args.weight = cfg.lastWeight

/-- The messages of a tree of blocks that contains the stored block. There may be messages of other blocks, that are incomplete or not connected to the tree. -/
structure Spec.TreeBelow (C : Codec) (cfg : Config) (root stored : SentBlock) (tree others : List SentBlock) (received : List RMsg) : Prop
    extends HeadersBelow cfg root stored tree others where
  /-- produced by successful `AddBlock` and `SendBatch` calls -/
  correct : ∀ s ∈ tree ++ others, s.Correct C
  /-- only messages of these blocks are received -/
  only : ∀ m ∈ received, ∃ s ∈ tree ++ others, Copy s.msgs m
  /-- the other blocks are incomplete, or not connected to the tree -/
  beside : ∀ s ∈ others, Incomplete cfg.tracked s received ∨ s.args.parentHash ∉ tree.map (·.args.hash) ∧ root.args.parentHash ≠ s.args.hash

/-- The blocks of the tree among some blocks. -/
def Spec.blocksIn (tree : List SentBlock) (bs : List PB) : List PB := bs.filter (fun b => decide (b.hash ∈ tree.map (·.args.hash)))

/-- The header of a block that is not lighter than the stored block is not received before all messages of the stored block. -/
def Spec.StoredFirst (stored : SentBlock) (tree : List SentBlock) (received : List RMsg) : Prop :=
  ∀ l1 m l2, received = l1 ++ m :: l2 → m.key.head? = some BatchType → ∀ s ∈ tree, blockOf m.key = s.args.hash →
    s = stored ∨ s.args.weight < stored.args.weight ∨ AllArrive stored.msgs l1

open Spec

section
variable {C : Codec} {env : Env} {o : MapOrder} {cfg : Config} {root stored : SentBlock} {tree others : List SentBlock} {received : List RMsg}

/-- If headers of some blocks come only after all messages of another one, and no eviction request is acted on before the last message, then the blocks are
emitted after the other one. -/
theorem emitted_after (hS : Supplied C tree received) (hC : C.Lawful) {free : SentBlock → Prop} {need : SentBlock → SentBlock → Prop}
    (hf : ∀ l1 m l2, received = l1 ++ m :: l2 → m.key.head? = some BatchType → ∀ s ∈ tree, blockOf m.key = s.args.hash →
      free s ∨ ∃ p ∈ tree, need s p ∧ AllArrive p.msgs l1) {mp0 : MP}
    (hn : newMP cfg = .ok mp0) {ms rest : List RMsg} (hms : received = ms ++ rest) {mp : MP} (hr : mp0.run C env ms = .ok mp)
    (hq : ∀ l1 m l2 mp1, ms = l1 ++ m :: l2 → mp0.run C env l1 = .ok mp1 → ∀ t, t < mp1.tick → env.evict t = []) :
    ∀ l1 b l2, mp.emitted = l1 ++ b :: l2 → ∃ s ∈ tree, Exact cfg.tracked s.schema s.args s.subs b ∧
      (free s ∨ ∃ p ∈ tree, need s p ∧ ∃ a ∈ l1, a.hash = p.args.hash) := by
  induction ms using snoc_induction generalizing rest mp with
  | nil =>
    cases hr
    have h0 : mp0.emitted = [] := by
      unfold newMP at hn
      split at hn
      · cases hn
      · cases hn; rfl
    intro l1 b l2 e
    rw [h0] at e
    simp at e
  | snoc l m ih =>
    obtain ⟨mp1, hr1, hr2⟩ := run_append hr
    obtain ⟨es, hes⟩ := emitted_grows hn hr1 hr
    have ih := ih (rest := m :: rest) (by rw [hms]; simp) hr1 (fun l1 x l2 mp1 e => hq l1 x (l2 ++ [m]) mp1 (by rw [e]; simp))
    have hparent : ∀ b ∈ es, ∃ s ∈ tree, Exact cfg.tracked s.schema s.args s.subs b ∧
        (free s ∨ ∃ p ∈ tree, need s p ∧ ∃ a ∈ mp1.emitted, a.hash = p.args.hash) := by
      intro b hb
      have hbm : b ∈ mp.emitted := by rw [hes]; simp [hb]
      obtain ⟨hd, _, hof, _⟩ := ((prov_parts C env (· ∈ l ++ [m]) (run_ok_len hr) cfg.tracked cfg.frp).emitted hn
        (by intro s o hs; simp at hs) (fun m hm => hm) hr b hbm).1.head
      obtain ⟨s, hs, he⟩ := hS.emitted hC hn (fun x hx => by rw [hms]; simp at hx ⊢; rcases hx with hx | hx <;> simp [hx]) hr hbm
      obtain ⟨a, c, e⟩ := List.append_of_mem hof.mem
      refine ⟨s, hs, he, ?_⟩
      rcases hf a hd (c ++ rest) (by rw [hms, e]; simp) hof.type s hs (hof.block.trans he.hash) with hroot | ⟨p, hp, e1, hall⟩
      · exact .inl hroot
      · right
        have hsub : ∀ x ∈ a, x ∈ l := by
          intro x hx
          rcases List.append_eq_append_iff.mp e with ⟨u, hu1, hu2⟩ | ⟨u, hu1, hu2⟩
          · rcases u with _ | ⟨y, u⟩
            · simp at hu1; rw [← hu1]; exact hx
            · simp at hu2
          · rw [hu1]; simp [hx]
        have hk : Keeps (env.upTo mp1.tick) p.args.number := by
          intro t n hn'
          unfold Env.upTo at hn'
          simp only [] at hn'
          split at hn'
          · rename_i ht
            rw [hq l m [] mp1 rfl hr1 t ht] at hn'
            simp at hn'
          · simp at hn'
        obtain ⟨pb, hpb, hex⟩ := C01_delivered hC (hS.correct p hp).1 (hS.correct p hp).2 hn hk
          (faithful_of_blocks hC hS.correct hS.inj (fun x hx => .inl (hS.only x (by rw [hms]; simp [hx]))) hp)
          (fun x hx => by obtain ⟨y, hy, hxy⟩ := hall x hx; exact ⟨y, hsub y hy, hxy⟩) (run_upTo hr1 (Nat.le_refl _))
        exact ⟨p, hp, e1, pb, hpb, hex.hash⟩
    intro l1 b l2 e
    rw [hes] at e
    rcases List.append_eq_append_iff.mp e with ⟨u, hu1, hu2⟩ | ⟨u, hu1, hu2⟩
    · obtain ⟨s, hs, he, h⟩ := hparent b (by rw [hu2]; simp)
      refine ⟨s, hs, he, h.imp id ?_⟩
      rintro ⟨p, hp, e1, a, ha, e⟩
      exact ⟨p, hp, e1, a, by rw [hu1]; simp [ha], e⟩
    · rcases u with _ | ⟨y, u⟩
      · simp at hu2
        obtain ⟨s, hs, he, h⟩ := hparent b (by rw [← hu2]; simp)
        refine ⟨s, hs, he, h.imp id ?_⟩
        rintro ⟨p, hp, e1, a, ha, e⟩
        exact ⟨p, hp, e1, a, by rw [hu1] at ha; simpa using ha, e⟩
      · simp at hu2
        obtain ⟨rfl, _⟩ := hu2
        exact ih l1 b u hu1

/-- If requests are sent only after requests were acted on, none is ever acted on. -/
theorem undisturbed_of (hS : Supplied C tree received) (hC : C.Lawful) {s0 s : Sys} (hst : Sys.start cfg (received.map Call.msg) = .ok s0)
    (hcons : ∀ s, Sys.Steps C env o s0 s → Undisturbed C env cfg s.calls → ∀ n, OOut.evictOlder n ∉ s.omp.log)
    (hs : CausalSteps C env o s0 s) : Undisturbed C env cfg s.calls := by
  induction hs with
  | refl =>
    intro mp0 ms _ hc l1 m l2 mp1 e
    have : s0.calls = [] := by
      unfold Sys.start at hst
      obtain ⟨mp, _, hst⟩ := bind_ok.mp hst
      obtain ⟨omp, _, hst⟩ := bind_ok.mp hst
      cases hst; rfl
    rw [this] at hc
    have := (List.map_eq_nil_iff.mp hc.symm)
    rw [this] at e
    simp at e
  | step hs hstep hheard ih =>
    rename_i s1 s2
    cases hstep with
    | call ht hout hc =>
      rename_i c cs mp
      have hc1 := hcons s1 hs.steps ih
      have hh := hheard (by simp)
      obtain ⟨mp0', omp0, ms1, ds, hn', ho, ⟨rest, h1, h2⟩, h3, h4, h5, h6⟩ := hS.inside hC hst hs.steps
      have hcalls : s1.calls = ms1.map Call.msg := by
        have := ((Piped.start hst).steps hs.steps).consists.calls
        rw [h1, h2, List.map_append] at this
        exact (List.append_cancel_right this).symm
      intro mp0 ms hn hcs l1 m l2 mp1 e hr t htick
      rw [hn'] at hn
      cases hn
      have hcs : s1.calls ++ [c] = ms.map Call.msg := hcs
      rw [hcalls, e] at hcs
      rw [List.map_append, List.map_cons] at hcs
      rcases l2 with _ | ⟨y, l2⟩
      · rw [List.map_nil] at hcs
        have := call_msg_inj (List.append_inj_left' hcs rfl)
        subst this
        rw [h3] at hr
        cases hr
        cases hev : env.evict t with
        | nil => rfl
        | cons n rest => exact (hc1 n (hh t htick n (by rw [hev]; simp))).elim
      · obtain ⟨l3, z, e3⟩ : ∃ l3 z, y :: l2 = l3 ++ [z] := ⟨(y :: l2).dropLast, (y :: l2).getLast (List.cons_ne_nil _ _), (List.dropLast_concat_getLast (List.cons_ne_nil _ _)).symm⟩
        rw [e3, List.map_append] at hcs
        have hcs : ms1.map Call.msg ++ [c] = (l1 ++ m :: l3).map Call.msg ++ [Call.msg z] := by rw [hcs]; simp
        have := call_msg_inj (List.append_inj_left' hcs rfl)
        exact ih mp0' ms1 hn' hcalls l1 m l3 mp1 this hr t htick
    | sendBlock h1 h2 => exact ih
    | sendReorg h1 h2 => exact ih
    | sendWaiter h1 => exact ih
    | block h1 h2 => exact ih
    | reorg h1 h2 => exact ih

theorem Spec.TreeBelow.supplied (h : TreeBelow C cfg root stored tree others received) : Supplied C (tree ++ others) received :=
  ⟨h.correct, (List.nodup_cons.mp h.distinct).2, h.only⟩

/-- With fewer messages received. -/
theorem Spec.TreeBelow.fewer (h : TreeBelow C cfg root stored tree others received) {received' : List RMsg} (hr : ∀ m ∈ received', m ∈ received) :
    TreeBelow C cfg root stored tree others received' := by
  refine ⟨h.toHeadersBelow, h.correct, fun m hm => h.only m (hr m hm), ?_⟩
  intro s hs
  refine (h.beside s hs).imp ?_ id
  rintro ⟨x, hx, h1, h2⟩
  exact ⟨x, hx, h1, fun m hm => h2 m (hr m hm)⟩

/-- The headers of some blocks. -/
def forestWorld (l : List SentBlock) : World where
  parent h := ((l.find? (fun s => s.args.hash == h)).map (·.args.parentHash)).getD Hash.zero
  number h := ((l.find? (fun s => s.args.hash == h)).map (·.args.number)).getD
    (((l.find? (fun s => s.args.parentHash == h)).map (·.args.number - 1)).getD 0)
  weight h := ((l.find? (fun s => s.args.hash == h)).map (·.args.weight.toNat)).getD 0

theorem Spec.HeadersBelow.world (h : HeadersBelow cfg root stored tree others) {pb : PB} {s : SentBlock} (hs : s ∈ tree ++ others) (he : HeadOf s pb) :
    ((forestWorld (tree ++ others)).Has pb ∧ pb.hash ≠ Hash.zero) ∧ (forestWorld (tree ++ others)).Heavier pb ∧ (forestWorld (tree ++ others)).Numbered pb ∧
      ¬ Forbidden cfg.whitelist pb ∧ pb.hash ∈ (tree ++ others).map (·.args.hash) := by
  have hd := List.nodup_cons.mp h.distinct
  have hf := find_hash hd.2 hs
  have hmem : s.args.hash ∈ (tree ++ others).map (·.args.hash) := List.mem_map.mpr ⟨s, hs, rfl⟩
  have hw := he.weight
  have hpos := h.heavy s hs
  refine ⟨⟨⟨?_, ?_, ?_⟩, ?_⟩, ?_, ?_, ?_, by rw [he.hash]; exact hmem⟩
  · rw [he.parent, he.hash]; simp only [forestWorld, hf]; rfl
  · rw [he.number, he.hash]; simp only [forestWorld, hf]; rfl
  · rw [he.hash]
    have : pb.weight = s.args.weight.toNat := by omega
    simp only [forestWorld, hf, this]; rfl
  · rw [he.hash]
    intro e
    exact hd.1 (e ▸ hmem)
  · unfold World.Heavier
    rw [he.hash, he.parent]
    cases hg : (tree ++ others).find? (fun x => x.args.hash == s.args.parentHash) with
    | none =>
      simp only [forestWorld, hg, hf, Option.map_none, Option.getD_none, Option.map_some, Option.getD_some]
      omega
    | some p =>
      have hp := List.mem_of_find?_eq_some hg
      have hpe : p.args.hash = s.args.parentHash := by have := List.find?_some hg; simpa using this
      have := (h.numbers s hs p hp hpe).2
      have := h.heavy p hp
      simp only [forestWorld, hg, hf, Option.map_some, Option.getD_some]
      omega
  · unfold World.Numbered
    rw [he.hash, he.parent]
    cases hg : (tree ++ others).find? (fun x => x.args.hash == s.args.parentHash) with
    | none =>
      cases hq : (tree ++ others).find? (fun x => x.args.parentHash == s.args.parentHash) with
      | none =>
        have := List.find?_eq_none.mp hq s hs
        simp at this
      | some t =>
        have ht := List.mem_of_find?_eq_some hq
        have hte : t.args.parentHash = s.args.parentHash := by have := List.find?_some hq; simpa using this
        have := h.siblings t ht s hs hte
        simp only [forestWorld, hg, hf, hq, Option.map_none, Option.getD_none, Option.map_some, Option.getD_some]
        omega
    | some p =>
      have hp := List.mem_of_find?_eq_some hg
      have hpe : p.args.hash = s.args.parentHash := by have := List.find?_some hg; simpa using this
      have := (h.numbers s hs p hp hpe).1
      simp only [forestWorld, hg, hf, Option.map_some, Option.getD_some]
      omega
  · rintro ⟨x, hx, hne⟩
    rw [he.number] at hx
    exact hne ((h.whitelist s hs x hx).trans he.hash.symm)

theorem Spec.HeadersBelow.inU (h : HeadersBelow cfg root stored tree others) : cfg.lastHash ∈ (tree ++ others).map (·.args.hash) := by
  rw [← h.hash]; exact List.mem_map.mpr ⟨stored, List.mem_append_left _ h.inTree, rfl⟩

theorem Spec.HeadersBelow.storedHash (h : HeadersBelow cfg root stored tree others) : cfg.lastHash ≠ Hash.zero := by
  intro e
  exact (List.nodup_cons.mp h.distinct).1 (e ▸ h.inU)

theorem Spec.HeadersBelow.storedWeight (h : HeadersBelow cfg root stored tree others) : cfg.lastWeight = (forestWorld (tree ++ others)).weight cfg.lastHash := by
  have hf := find_hash (List.nodup_cons.mp h.distinct).2 (List.mem_append_left others h.inTree)
  rw [h.hash] at hf
  have := h.weight
  simp only [forestWorld, hf, Option.map_some, Option.getD_some]
  omega

/-- Blocks as one of the tree. -/
def OfTree (tree : List SentBlock) (b : PB) : Prop := ∃ s ∈ tree, HeadOf s b

/-- Blocks as one of the others not connected to the tree. -/
def OfOther (root : SentBlock) (tree others : List SentBlock) (b : PB) : Prop :=
  ∃ s ∈ others, HeadOf s b ∧ s.args.parentHash ∉ tree.map (·.args.hash) ∧ root.args.parentHash ≠ s.args.hash

theorem Spec.HeadersBelow.tree_other (h : HeadersBelow cfg root stored tree others) {s t : SentBlock} (hs : s ∈ tree) (ht : t ∈ others) :
    s.args.hash ≠ t.args.hash := by
  have := (List.nodup_cons.mp h.distinct).2
  rw [List.map_append] at this
  exact (List.nodup_append.mp this).2.2 _ (List.mem_map.mpr ⟨s, hs, rfl⟩) _ (List.mem_map.mpr ⟨t, ht, rfl⟩)

theorem Spec.HeadersBelow.apart (h : HeadersBelow cfg root stored tree others) :
    Beside cfg.lastHash (OfTree tree) (OfOther root tree others) := by
  refine ⟨?_, ?_⟩
  · rintro b ⟨s, hs, he, h2, _⟩
    refine ⟨?_, ?_⟩
    · rw [he.hash, ← h.hash]; exact fun e => h.tree_other h.inTree hs e.symm
    · rw [he.parent, ← h.hash]
      exact fun e => h2 (List.mem_map.mpr ⟨stored, h.inTree, e.symm⟩)
  · rintro a b ⟨t, ht, hta⟩ ⟨s, hs, he, h2, h3⟩
    refine ⟨?_, ?_, ?_⟩
    · rw [hta.hash, he.hash]; exact h.tree_other ht hs
    · rw [he.parent, hta.hash]
      exact fun e => h2 (List.mem_map.mpr ⟨t, ht, e.symm⟩)
    · rw [hta.parent, he.hash]
      rcases h.parents t ht with rfl | ⟨p, hp, e⟩
      · exact h3
      · rw [← e]; exact h.tree_other hp hs

theorem Spec.HeadersBelow.regular (h : HeadersBelow cfg root stored tree others) :
    Regular (forestWorld (tree ++ others)) ((tree ++ others).map (·.args.hash)) (fun b => OfTree tree b ∨ OfOther root tree others b) := by
  have w : ∀ b, OfTree tree b ∨ OfOther root tree others b → ∃ s ∈ tree ++ others, HeadOf s b := by
    rintro b (⟨s, hs, he⟩ | ⟨s, hs, he, _⟩)
    · exact ⟨s, List.mem_append_left _ hs, he⟩
    · exact ⟨s, List.mem_append_right _ hs, he⟩
  refine ⟨⟨?_, ?_⟩, ?_, ?_, ?_, ?_⟩
  · intro b hb; obtain ⟨s, hs, he⟩ := w b hb; exact (h.world hs he).1.2
  · intro a b ha hb e
    obtain ⟨s, hs, hsa⟩ := w a ha
    obtain ⟨t, ht, htb⟩ := w b hb
    rw [(h.world hs hsa).1.1.parent, (h.world ht htb).1.1.parent, e]
  · intro b hb; obtain ⟨s, hs, he⟩ := w b hb; exact (h.world hs he).1.1
  · intro b hb; obtain ⟨s, hs, he⟩ := w b hb; exact (h.world hs he).2.2.1
  · intro b hb; obtain ⟨s, hs, he⟩ := w b hb; exact (h.world hs he).2.1
  · intro b hb; obtain ⟨s, hs, he⟩ := w b hb; exact (h.world hs he).2.2.2.2

theorem headOf_exact {tr : GoStr → Bool} {s : SentBlock} {pb : PB} (he : Exact tr s.schema s.args s.subs pb) : HeadOf s pb := ⟨he.number, he.weight, he.hash, he.parent⟩

/-- What is emitted are blocks of the tree and others not connected to it. -/
theorem Spec.TreeBelow.emitted (h : TreeBelow C cfg root stored tree others received) (hC : C.Lawful) {mp mp' : MP} (hn : newMP cfg = .ok mp)
    {ms : List RMsg} (hms : ∀ m ∈ ms, m ∈ received) (hr : mp.run C env ms = .ok mp') {pb : PB} (hpb : pb ∈ mp'.emitted) :
    ∃ s ∈ tree ++ others, Exact cfg.tracked s.schema s.args s.subs pb ∧ (s ∈ tree ∨ OfOther root tree others pb) := by
  obtain ⟨s, hs, he⟩ := h.supplied.emitted hC hn hms hr hpb
  refine ⟨s, hs, he, ?_⟩
  rcases List.mem_append.mp hs with hs' | hs'
  · exact .inl hs'
  · right
    rcases h.beside s hs' with ⟨x, hx, h1, h2⟩ | hl
    · obtain ⟨m, hm, e⟩ := emitted_there hC (h.correct s hs).1 (h.correct s hs).2 hn
        (faithful_of_blocks hC h.correct h.supplied.inj (fun m hm => .inl (h.only m (hms m hm))) hs) hr ⟨pb, hpb, he.hash⟩ x hx h1
      exact (h2 m (hms m hm) e).elim
    · exact ⟨s, hs', headOf_exact he, hl⟩

/-- Blocks of the tree and others not connected to it. -/
def Known2 (tr : GoStr → Bool) (root : SentBlock) (tree others : List SentBlock) (pb : PB) : Prop :=
  ∃ s ∈ tree ++ others, Exact tr s.schema s.args s.subs pb ∧ (s ∈ tree ∨ OfOther root tree others pb)

theorem Known2.kind {tr : GoStr → Bool} {pb : PB} (h : Known2 tr root tree others pb) : OfTree tree pb ∨ OfOther root tree others pb := by
  obtain ⟨s, hs, he, k | k⟩ := h
  · exact .inl ⟨s, k, headOf_exact he⟩
  · exact .inr k

/-- Blocks of the tree come after their parents, and those not lighter than the stored one after that. -/
structure TreeOrder (cfg : Config) (root : Hash) (tree : List SentBlock) (ds : List PB) : Prop where
  parents : ∀ l1 b l2, ds = l1 ++ b :: l2 → OfTree tree b → b.hash = root ∨ ∃ a ∈ l1, OfTree tree a ∧ a.hash = b.parentHash
  stored : ∀ l1 b l2, ds = l1 ++ b :: l2 → OfTree tree b → b.hash = cfg.lastHash ∨ b.weight < cfg.lastWeight ∨ ∃ a ∈ l1, OfTree tree a ∧ a.hash = cfg.lastHash

theorem TreeOrder.prefix {r : Hash} {a b : List PB} (h : TreeOrder cfg r tree (a ++ b)) : TreeOrder cfg r tree a :=
  ⟨fun l1 x l2 e => h.parents l1 x (l2 ++ b) (by rw [e]; simp), fun l1 x l2 e => h.stored l1 x (l2 ++ b) (by rw [e]; simp)⟩

theorem Spec.HeadersBelow.inTree_iff (h : HeadersBelow cfg root stored tree others) {b : PB} (hb : OfTree tree b ∨ OfOther root tree others b) :
    b.hash ∈ tree.map (·.args.hash) ↔ OfTree tree b := by
  refine ⟨fun hin => hb.resolve_right ?_, ?_⟩
  · rintro ⟨s, hs, he, _⟩
    obtain ⟨t, ht, e⟩ := List.mem_map.mp hin
    exact h.tree_other ht hs (e.trans he.hash)
  · rintro ⟨s, hs, he⟩
    exact List.mem_map.mpr ⟨s, hs, he.hash.symm⟩

/-- The ordering layer after handling emitted blocks. -/
theorem Spec.HeadersBelow.handled (h : HeadersBelow cfg root stored tree others) (hwin : ((tree ++ others).length : Int) ≤ 2 * cfg.reorgThreshold) {omp0 omp : OMP}
    (ho : newOMP cfg = .ok omp0) {ds : List PB} (hds : ∀ pb ∈ ds, OfTree tree pb ∨ OfOther root tree others pb)
    (hord : TreeOrder cfg root.args.hash tree ds) (hr : omp0.run o (ds.map OOp.block) = .ok omp) :
    (∀ n, OOut.evictOlder n ∉ omp.log) ∧ (cfg.lastHash ∈ hashes ds → FirstHeaviest (blocksIn tree ds) omp.lastHash) ∧
      (cfg.lastHash ∉ hashes ds → omp.log = [] ∧ omp.lastHash = cfg.lastHash) := by
  have hU : (((tree ++ others).map (·.args.hash)).length : Int) ≤ 2 * cfg.reorgThreshold := by simpa using hwin
  obtain ⟨i1, i2, i3, i4, i5, i6, _⟩ := newOMP_inv (D := fun b => b ∈ ([] : List PB) ∨ OfOther root tree others b) ho
  obtain ⟨r1, r2, _, _⟩ := newOMP_room ho hU h.inU
  have hM : Mixed (forestWorld (tree ++ others)) ((tree ++ others).map (·.args.hash)) cfg.whitelist cfg.lastHash (OfOther root tree others) [] omp0 := by
    refine ⟨i1, r1, by simp [i6, h.storedHash], i4, ?_, by simp, by simp, by simp [r2], fun x hx => .inl (by simpa [r2] using hx), by rw [i3, i2, h.storedWeight],
      .inl ⟨by simp [hashes], by simp, i2, i5⟩, by simp [i5]⟩
    intro x
    unfold newOMP at ho
    split at ho
    · simp at ho
    · simp only [Except.ok.injEq] at ho
      subst ho
      rfl
  have hR := h.regular
  have hfin := mixed_run (o := o) (root := root.args.hash) h.apart hR (wl := cfg.whitelist) (by
      rintro b (⟨s, hs, he⟩ | ⟨s, hs, he, _⟩)
      · exact (h.world (List.mem_append_left _ hs) he).2.2.2.1
      · exact (h.world (List.mem_append_right _ hs) he).2.2.2.1) (pre := []) (by simp) hds ⟨by simp, by simp, .inl rfl⟩ hM (by simpa using hord.parents)
      (by rw [← h.storedWeight]; simpa using hord.stored) hr
  rw [List.nil_append] at hfin
  have hlast : cfg.lastHash ∈ hashes ds → cfg.lastHash ∈ hashes (ds.filter (fun b => @decide (OfTree tree b) (Classical.propDecidable _))) := by
    intro hin
    obtain ⟨x, hx, ex⟩ := List.mem_map.mp hin
    refine List.mem_map.mpr ⟨x, List.mem_filter.mpr ⟨hx, ?_⟩, ex⟩
    rcases hds x hx with k | k
    · simpa using k
    · exact ((h.apart.last x k).1 ex).elim
  have hsame : blocksIn tree ds = ds.filter (fun b => @decide (OfTree tree b) (Classical.propDecidable _)) := by
    refine List.filter_congr (fun b hb => ?_)
    rw [decide_eq_decide]
    exact h.inTree_iff (hds b hb)
  refine ⟨hfin.calm, ?_, ?_⟩
  · intro hin
    rcases hfin.head with ⟨k, _⟩ | ⟨k, hf⟩
    · exact (k (hlast hin)).elim
    · rw [hsame]; exact hf
  · intro hin
    rcases hfin.head with ⟨_, _, k1, k2⟩ | ⟨k, _⟩
    · exact ⟨k2, k1⟩
    · obtain ⟨x, hx, ex⟩ := List.mem_map.mp k
      exact (hin (ex ▸ mem_hashes (List.mem_filter.mp hx).1)).elim

theorem Spec.TreeBelow.known_tree (h : TreeBelow C cfg root stored tree others received) {tr : GoStr → Bool} {b : PB} (hb : Known2 tr root tree others b)
    (hin : b.hash ∈ tree.map (·.args.hash)) : ∃ s ∈ tree, Exact tr s.schema s.args s.subs b := by
  obtain ⟨s, hs, he, k | k⟩ := hb
  · exact ⟨s, k, he⟩
  · obtain ⟨t, ht, e⟩ := List.mem_map.mp hin
    obtain ⟨s', hs', he', _⟩ := k
    exact (h.tree_other ht hs' (e.trans he'.hash)).elim

/-- A chain that ends in the tree is in the tree. -/
theorem Spec.HeadersBelow.chain_tree (h : HeadersBelow cfg root stored tree others) {base : Hash} {chain : List PB} (hl : Linked base chain)
    (hk : ∀ b ∈ chain, OfTree tree b ∨ OfOther root tree others b) (hin : endOf base chain ∈ tree.map (·.args.hash)) : ∀ b ∈ chain, OfTree tree b := by
  induction chain using snoc_induction with
  | nil => simp
  | snoc l b ih =>
    obtain ⟨hl1, hl2⟩ := linked_append.mp hl
    have hb := (h.inTree_iff (hk b (by simp))).mp (by rw [endOf_append] at hin; exact hin)
    have hnext : ∀ x ∈ l, OfTree tree x := by
      intro x hx
      refine ih hl1 (fun y hy => hk y (by simp [hy])) ?_ x hx
      have hne : l ≠ [] := fun e => by rw [e] at hx; simp at hx
      obtain ⟨l', y, rfl⟩ : ∃ l' y, l = l' ++ [y] := ⟨l.dropLast, l.getLast hne, (List.dropLast_concat_getLast hne).symm⟩
      have e : endOf base (l' ++ [y]) = y.hash := by rw [endOf_append]; rfl
      rw [e]
      have hy := hk y (by simp)
      refine (h.inTree_iff hy).mpr (hy.resolve_right (fun ho => ?_))
      refine (h.apart.apart b y hb ho).2.2 ?_
      rw [e] at hl2
      exact hl2.1
    intro x hx
    rcases List.mem_append.mp hx with hx | hx
    · exact hnext x hx
    · rw [List.mem_singleton.mp hx]; exact hb

theorem Spec.TreeBelow.chain_exact (h : TreeBelow C cfg root stored tree others received) {tr : GoStr → Bool} {base : Hash} {chain : List PB} (hl : Linked base chain)
    (hk : ∀ b ∈ chain, Known2 tr root tree others b) (hin : endOf base chain ∈ tree.map (·.args.hash)) :
    ∀ b ∈ chain, ∃ s ∈ tree, Exact tr s.schema s.args s.subs b := fun b hb =>
  h.known_tree (hk b hb) ((h.inTree_iff (hk b hb).kind).mpr (h.chain_tree hl (fun x hx => (hk x hx).kind) hin b hb))

theorem Spec.TreeBelow.ordered (h : TreeBelow C cfg root stored tree others received) (hC : C.Lawful)
    (hf : HeadersFollow root tree received) (hsf : StoredFirst stored tree received) {mp0 : MP}
    (hn : newMP cfg = .ok mp0) {ms rest : List RMsg} (hms : received = ms ++ rest) {mp : MP} (hr : mp0.run C env ms = .ok mp)
    (hq : ∀ l1 m l2 mp1, ms = l1 ++ m :: l2 → mp0.run C env l1 = .ok mp1 → ∀ t, t < mp1.tick → env.evict t = []) : TreeOrder cfg root.args.hash tree mp.emitted := by
  have hS := h.supplied
  have hem : ∀ a ∈ mp.emitted, ∀ p ∈ tree, a.hash = p.args.hash → OfTree tree a := by
    intro a ha p hp e
    obtain ⟨s, hs, he⟩ := hS.emitted hC hn (fun m hm => by rw [hms]; simp [hm]) hr ha
    have : s = p := hS.inj _ _ hs (List.mem_append_left _ hp) (he.hash.symm.trans e)
    exact ⟨p, hp, this ▸ headOf_exact he⟩
  refine ⟨?_, ?_⟩
  · rintro l1 b l2 e ⟨t, ht, htb⟩
    obtain ⟨sb, hsb, he, (k | k) | ⟨p, hp, ⟨k, hpt⟩, a, ha, ea⟩⟩ := emitted_after (free := fun s => s ∈ others ∨ s = root)
      (need := fun s p => p.args.hash = s.args.parentHash ∧ p ∈ tree) hS hC (fun l1 m l2 e hty s hs hb => by
        rcases List.mem_append.mp hs with hs | hs
        · rcases hf l1 m l2 e hty s hs hb with k | ⟨p, hp, k1, k2⟩
          · exact .inl (.inr k)
          · exact .inr ⟨p, List.mem_append_left _ hp, ⟨k1, hp⟩, k2⟩
        · exact .inl (.inl hs)) hn hms hr hq l1 b l2 e
    · exact (h.tree_other ht k (by rw [← htb.hash, he.hash])).elim
    · left; rw [he.hash, k]
    · exact .inr ⟨a, ha, hem a (by rw [e]; simp [ha]) p hpt ea, by rw [ea, k, he.parent]⟩
  · rintro l1 b l2 e ⟨t, ht, htb⟩
    obtain ⟨sb, hsb, he, (k | k | k) | ⟨p, hp, k, a, ha, ea⟩⟩ := emitted_after
      (free := fun s => s ∈ others ∨ s = stored ∨ s.args.weight < stored.args.weight) (need := fun _ p => p = stored)
      hS hC (fun l1 m l2 e hty s hs hb => by
        rcases List.mem_append.mp hs with hs | hs
        · rcases hsf l1 m l2 e hty s hs hb with k | k | k
          · exact .inl (.inr (.inl k))
          · exact .inl (.inr (.inr k))
          · exact .inr ⟨stored, List.mem_append_left _ h.inTree, rfl, k⟩
        · exact .inl (.inl hs)) hn hms hr hq l1 b l2 e
    · exact (h.tree_other ht k (by rw [← htb.hash, he.hash])).elim
    · left; rw [he.hash, k, h.hash]
    · right; left
      have := he.weight
      have := h.weight
      omega
    · right; right
      subst k
      exact ⟨a, ha, hem a (by rw [e]; simp [ha]) p h.inTree ea, by rw [ea, h.hash]⟩

theorem Spec.TreeBelow.consequences (h : TreeBelow C cfg root stored tree others received) (hC : C.Lawful)
    (hwin : ((tree ++ others).length : Int) ≤ 2 * cfg.reorgThreshold)
    (hf : HeadersFollow root tree received) (hsf : StoredFirst stored tree received) {s0 s : Sys}
    (hst : Sys.start cfg (received.map Call.msg) = .ok s0) (hs : Sys.Steps C env o s0 s) (key : Undisturbed C env cfg s.calls) :
    (∀ n, OOut.evictOlder n ∉ s.omp.log) ∧ (cfg.lastHash ∈ hashes (blocksOf s.ops) → FirstHeaviest (blocksIn tree (blocksOf s.ops)) s.omp.lastHash) ∧
      (cfg.lastHash ∉ hashes (blocksOf s.ops) → s.omp.log = [] ∧ s.omp.lastHash = cfg.lastHash) := by
  obtain ⟨mp0, omp0, ms, ds, hn, ho, ⟨rest, h1, h2⟩, h3, h4, h5, h6⟩ := h.supplied.inside hC hst hs
  have hcalls : s.calls = ms.map Call.msg := by
    have := ((Piped.start hst).steps hs).consists.calls
    rw [h1, h2, List.map_append] at this
    exact (List.append_cancel_right this).symm
  have hds : blocksOf s.ops = ds := by rw [h4, blocksOf_map]
  have hord := h.ordered hC hf hsf hn h1 h3 (key mp0 ms hn hcalls)
  rw [hds]
  rw [h6] at hord
  refine h.handled hwin ho ?_ hord.prefix h5
  intro pb hpb
  exact Known2.kind (h.emitted hC hn (fun m hm => by rw [h1]; simp [hm]) h3 (by rw [h6]; simp [hpb]))

/-- **C131**, no faults: whatever the order of the messages, no goroutine is ever about to fault, and every execution can be completed. -/
theorem C131_no_fault (h : TreeBelow C cfg root stored tree others received) (hC : C.Lawful) (hwin : ((tree ++ others).length : Int) ≤ 2 * cfg.reorgThreshold)
    {s0 s : Sys} (hst : Sys.start cfg (received.map Call.msg) = .ok s0) (hs : Sys.Steps C env o s0 s) :
    ¬ Faulty C env o s ∧ ∃ s', Sys.Steps C env o s s' ∧ s'.Drained := by
  have key : ∀ s, Sys.Steps C env o s0 s → ¬ Faulty C env o s := by
    intro s hs
    refine h.supplied.calm hC hst hs ?_
    intro omp0 ds ho hds
    have w : ∀ b ∈ ds, (((forestWorld (tree ++ others)).Has b ∧ b.hash ≠ Hash.zero) ∧ (forestWorld (tree ++ others)).Heavier b ∧
        (forestWorld (tree ++ others)).Numbered b ∧ ¬ Forbidden cfg.whitelist b ∧ b.hash ∈ (tree ++ others).map (·.args.hash)) := fun b hb => by
      obtain ⟨sb, hsb, he⟩ := hds b hb
      exact h.world hsb (headOf_exact he)
    exact C35_partial (o := o) h.storedHash h.storedWeight (fun b hb => (w b hb).1) (fun b hb => (w b hb).2.1)
      (fun b hb => (w b hb).2.2.1) ⟨(tree ++ others).map (·.args.hash), by simpa using hwin, h.inU, fun b hb => (w b hb).2.2.2.2⟩ ho
  refine ⟨key s hs, ?_⟩
  obtain ⟨s', h1, h2⟩ := s.drains (C := C) (env := env) (o := o) ((Piped.start (C := C) (env := env) (o := o) hst).steps hs).room
  refine ⟨s', h1, h2.resolve_right (key s' ?_)⟩
  clear h2
  induction h1 with
  | refl => exact hs
  | step _ h ih => exact .step ih h

/-- **C131**, the whole consumer while running: as long as the stored block has not been handled, nothing is told to the subscribers; from then on their head is
the first-handled block of maximal weight among those of the tree that were handled. Nothing is asked to be dropped. Incomplete blocks and blocks with no connection
to the tree (as a reader finds them that begins anywhere) make no difference. -/
theorem C131_head_partial (h : TreeBelow C cfg root stored tree others received) (hC : C.Lawful) (hwin : ((tree ++ others).length : Int) ≤ 2 * cfg.reorgThreshold)
    (hf : HeadersFollow root tree received) (hsf : StoredFirst stored tree received) {s0 s : Sys}
    (hst : Sys.start cfg (received.map Call.msg) = .ok s0) (hs : CausalSteps C env o s0 s) :
    (∀ n, OOut.evictOlder n ∉ s.omp.log) ∧ (cfg.lastHash ∈ hashes (blocksOf s.ops) → FirstHeaviest (blocksIn tree (blocksOf s.ops)) s.omp.lastHash) ∧
      (cfg.lastHash ∉ hashes (blocksOf s.ops) → s.omp.log = [] ∧ s.omp.lastHash = cfg.lastHash) :=
  h.consequences hC hwin hf hsf hst hs.steps
    (undisturbed_of h.supplied hC hst (fun _ hs key => (h.consequences hC hwin hf hsf hst hs key).1) hs)

/-- **C131**, the whole consumer at the end: when all messages of the tree have arrived and everything has been handled, the subscribers, having applied all updates, hold a
chain of blocks exactly as produced that ends in a block of maximal weight of the whole tree, also if that is on a fork from below the stored block.
Missing: orders in which a heavier block precedes its parent or the stored block (`C131_refuted_before`, `C131_refuted_late`, `C131_never_refuted`). -/
theorem C131_end_partial (h : TreeBelow C cfg root stored tree others received) (hC : C.Lawful) (hwin : ((tree ++ others).length : Int) ≤ 2 * cfg.reorgThreshold)
    (hf : HeadersFollow root tree received) (hsf : StoredFirst stored tree received) (ha : ∀ s ∈ tree, AllArrive s.msgs received) {s0 s : Sys}
    (hst : Sys.start cfg (received.map Call.msg) = .ok s0) (hs : CausalSteps C env o s0 s) (hd : s.Drained) (hg : Heard env s) :
    ∃ base chain top, Replays cfg.lastHash s.omp.log base chain ∧ Linked base chain ∧ endOf base chain = top.args.hash ∧
      top ∈ tree ∧ (∀ sb ∈ tree, sb.args.weight ≤ top.args.weight) ∧
      ∀ b ∈ chain, ∃ sb ∈ tree, Exact cfg.tracked sb.schema sb.args sb.subs b := by
  have hin := C131_head_partial h hC hwin hf hsf hst hs
  have hS := h.supplied
  obtain ⟨mp0, omp0, ms, ds, hn, ho, ⟨rest, h1, h2⟩, h3, h4, h5, h6⟩ := hS.inside hC hst hs.steps
  rw [hd.1] at h2
  have hrest : rest = [] := List.map_eq_nil_iff.mp h2.symm
  subst hrest
  rw [List.append_nil] at h1
  subst h1
  rw [hd.2.1, hd.2.2.1] at h6
  have h6 : s.mp.emitted = ds := by simpa [blocksSent] using h6
  have hds : blocksOf s.ops = ds := by rw [h4, blocksOf_map]
  have hex : ∀ pb ∈ ds, Known2 cfg.tracked root tree others pb := fun pb hpb =>
    h.emitted hC hn (fun m hm => hm) h3 (by rw [h6]; exact hpb)
  have hk : ∀ n, Keeps (env.upTo s.mp.tick) n := by
    intro n t x hx
    unfold Env.upTo at hx
    simp only [] at hx
    split at hx
    · rename_i ht
      exact (hin.1 x (hg t ht x hx)).elim
    · simp at hx
  have hall : ∀ sb ∈ tree, ∃ pb ∈ ds, Exact cfg.tracked sb.schema sb.args sb.subs pb := by
    intro sb hsb
    have hsb' := List.mem_append_left others hsb
    obtain ⟨pb, hpb, he⟩ := C01_delivered hC (h.correct sb hsb').1 (h.correct sb hsb').2 hn (hk _)
      (faithful_of_blocks hC h.correct hS.inj (fun m hm => .inl (h.only m hm)) hsb') (ha sb hsb) (run_upTo h3 (Nat.le_refl _))
    exact ⟨pb, by rw [← h6]; exact hpb, he⟩
  obtain ⟨pst, hpst, hest⟩ := hall stored h.inTree
  have hne : cfg.lastHash ∈ hashes (blocksOf s.ops) := by
    rw [hds, ← h.hash, ← hest.hash]
    exact mem_hashes hpst
  obtain ⟨l1, b, l2, e, e1, e2, _⟩ := hin.2.1 hne
  rw [hds] at e e2
  obtain ⟨hb, hbt⟩ := List.mem_filter.mp (show b ∈ blocksIn tree ds by rw [e]; simp)
  obtain ⟨top, htop, hx⟩ := h.known_tree (hex b hb) (by simpa using hbt)
  obtain ⟨base, chain, g1, g2, g3⟩ := C28_continuous (o := o) (W := forestWorld (tree ++ others)) (ops := ds.map OOp.block) (s0 := omp0) h.storedHash
    (by
      rw [blocksOf_map]
      intro b hb
      obtain ⟨sb, hsb, he, _⟩ := hex b hb
      exact (h.world hsb (headOf_exact he)).1) ho h5
  refine ⟨base, chain, top, g1, g2, by rw [g3, ← e1, hx.hash], htop, ?_, ?_⟩
  · intro sb hsb
    obtain ⟨pb, hpb, he⟩ := hall sb hsb
    have := e2 pb (List.mem_filter.mpr ⟨hpb, by simpa using ⟨sb, hsb, he.hash.symm⟩⟩)
    have h8 := he.weight
    have h9 := hx.weight
    omega
  · refine h.chain_exact g2 (fun x hx => ?_) (by rw [g3, ← e1, hx.hash]; exact List.mem_map.mpr ⟨top, htop, rfl⟩)
    obtain ⟨a, r, k1, k2⟩ := replays_sent g1 x hx
    exact hex x (by rw [← h6]; exact C43_updates hst hs.steps k1 (List.mem_append_left _ k2))

end

/-- `exNext` is the last block processed. -/
def exStoredCfg : Config := { exForkCfg with lastHash := exHash 3, lastWeight := 310, lastEmittedNum := 6 }

/-- A block not connected to the others. -/
def exStrayBlock : BlockArgs := { exBlock with number := 6, hash := exHash 6, parentHash := exHash 7, weight := 999 }

theorem exStrayBlock_ok : ∃ p' tm, addBlock' Avro.codec MapOrder.rev exProducer exStrayBlock = (p', .ok tm) := by
  have : (match (addBlock' Avro.codec MapOrder.rev exProducer exStrayBlock).2 with | .ok _ => true | .error _ => false) = true := by
    decide +kernel
  generalize hr : addBlock' Avro.codec MapOrder.rev exProducer exStrayBlock = r at this
  obtain ⟨p', r⟩ := r
  cases r with
  | error e => simp at this
  | ok tm => exact ⟨p', tm, rfl⟩

theorem exStrayBlock_wf : WellFormed exProducer.schema exStrayBlock exSubs := { exBlock_wf with weight := by decide, number := by decide, lenWeight := by decide +kernel }

/-- C131: the stored block is `exNext`; its parent comes again, then `exNext` itself, then a very heavy block not connected to these, then a heavier fork on the parent, and `exNext`
again; the subscribers end at the fork. -/
example : ∃ root stored tree others received, tree.length = 3 ∧ others ≠ [] ∧ root ≠ stored ∧ TreeBelow Avro.codec exStoredCfg root stored tree others received ∧
    ((tree ++ others).length : Int) ≤ 2 * exStoredCfg.reorgThreshold ∧
    HeadersFollow root tree received ∧ StoredFirst stored tree received ∧ (∀ s ∈ tree, AllArrive s.msgs received) ∧
    ∃ s0 s base chain, Sys.start exStoredCfg (received.map Call.msg) = .ok s0 ∧ CausalSteps Avro.codec exEnv .plain s0 s ∧ s.Drained ∧ Heard exEnv s ∧
      Replays exStoredCfg.lastHash s.omp.log base chain ∧ endOf base chain = exForkBlock.hash := by
  obtain ⟨m1, h1⟩ := exBlock_produced
  obtain ⟨p', tm, h⟩ := exNext_ok
  obtain ⟨m2, h2⟩ := produced_exists h exSubs
  obtain ⟨p', tm, h⟩ := exForkBlock_ok
  obtain ⟨m3, h3⟩ := produced_exists h exSubs
  obtain ⟨p', tm, h⟩ := exStrayBlock_ok
  obtain ⟨m4, h4⟩ := produced_exists h exSubs
  let root : SentBlock := ⟨exProducer.schema, exBlock, exSubs, m1⟩
  let tree : List SentBlock := [root, ⟨exProducer.schema, exNext, exSubs, m2⟩, ⟨exProducer.schema, exForkBlock, exSubs, m3⟩]
  have hmem : ∀ s, s ∈ tree ↔ s = root ∨ s = ⟨exProducer.schema, exNext, exSubs, m2⟩ ∨ s = ⟨exProducer.schema, exForkBlock, exSubs, m3⟩ := by
    intro s; simp [tree]
  let stray : SentBlock := ⟨exProducer.schema, exStrayBlock, exSubs, m4⟩
  have hcorrect : ∀ s ∈ tree, s.Correct Avro.codec := by
    intro s hs
    rcases (hmem s).mp hs with rfl | rfl | rfl
    · exact ⟨h1, exBlock_wf⟩
    · exact ⟨h2, exNext_wf⟩
    · exact ⟨h3, exForkBlock_wf⟩
  have hmem' : ∀ s, s ∈ tree ++ [stray] → s = root ∨ s = ⟨exProducer.schema, exNext, exSubs, m2⟩ ∨ s = ⟨exProducer.schema, exForkBlock, exSubs, m3⟩ ∨ s = stray := by
    intro s; simp [tree]
  have hT : TreeBelow Avro.codec exStoredCfg root ⟨exProducer.schema, exNext, exSubs, m2⟩ tree [stray] (recv m1 ++ (recv m2 ++ (recv m4 ++ (recv m3 ++ recv m2)))) := by
    refine ⟨⟨by simp [tree], ?_, ?_, ?_, ?_, ?_, ?_, ?_, by simp [tree], rfl, rfl⟩, ?_, ?_, ?_⟩
    · show exHash 2 ∉ [exHash 1, exHash 3, exHash 5]
      decide
    · intro s hs
      rcases (hmem s).mp hs with rfl | rfl | rfl
      · exact .inl rfl
      · exact .inr ⟨root, by simp [tree], rfl⟩
      · exact .inr ⟨root, by simp [tree], rfl⟩
    · show ∀ s ∈ tree ++ [stray], ∀ p ∈ tree ++ [stray], _
      have : ∀ s ∈ [exBlock, exNext, exForkBlock, exStrayBlock], ∀ p ∈ [exBlock, exNext, exForkBlock, exStrayBlock],
          p.hash = s.parentHash → s.number = p.number + 1 ∧ p.weight < s.weight := by decide
      intro s hs p hp
      refine this s.args ?_ p.args ?_
      · rcases hmem' s hs with rfl | rfl | rfl | rfl <;> simp [root, stray]
      · rcases hmem' p hp with rfl | rfl | rfl | rfl <;> simp [root, stray]
    · have : ∀ s ∈ [exBlock, exNext, exForkBlock, exStrayBlock], ∀ p ∈ [exBlock, exNext, exForkBlock, exStrayBlock],
          s.parentHash = p.parentHash → s.number = p.number := by decide
      intro s hs p hp
      refine this s.args ?_ p.args ?_
      · rcases hmem' s hs with rfl | rfl | rfl | rfl <;> simp [root, stray]
      · rcases hmem' p hp with rfl | rfl | rfl | rfl <;> simp [root, stray]
    · intro s hs
      rcases hmem' s hs with rfl | rfl | rfl | rfl
      · exact show (0 : Int) < 300 by decide
      · exact show (0 : Int) < 310 by decide
      · exact show (0 : Int) < 320 by decide
      · exact show (0 : Int) < 999 by decide
    · show [Hash.zero, exHash 1, exHash 3, exHash 5, exHash 6].Nodup
      decide
    · intro s _ x hx
      simp [exStoredCfg, exForkCfg, exCfg] at hx
    · intro s hs
      rcases List.mem_append.mp hs with hs | hs
      · exact hcorrect s hs
      · simp only [List.mem_singleton] at hs
        subst hs
        exact ⟨h4, exStrayBlock_wf⟩
    · intro m hm
      simp only [List.mem_append] at hm
      rcases hm with hm | hm | hm | hm | hm
      · exact ⟨root, by simp [tree], recv_copy (ms := m1) (fun _ h => h) hm⟩
      · exact ⟨⟨exProducer.schema, exNext, exSubs, m2⟩, by simp [tree], recv_copy (ms := m2) (fun _ h => h) hm⟩
      · exact ⟨stray, by simp, recv_copy (ms := m4) (fun _ h => h) hm⟩
      · exact ⟨⟨exProducer.schema, exForkBlock, exSubs, m3⟩, by simp [tree], recv_copy (ms := m3) (fun _ h => h) hm⟩
      · exact ⟨⟨exProducer.schema, exNext, exSubs, m2⟩, by simp [tree], recv_copy (ms := m2) (fun _ h => h) hm⟩
    · intro s hs
      simp only [List.mem_singleton] at hs
      subst hs
      refine .inr ⟨?_, show exHash 2 ≠ exHash 6 by decide⟩
      show exHash 7 ∉ [exHash 1, exHash 3, exHash 5]
      decide
  have hF : HeadersFollow root tree (recv m1 ++ (recv m2 ++ (recv m4 ++ (recv m3 ++ recv m2)))) := by
    intro l1 m l2 e _ s hs hb
    by_cases hr : s = root
    · exact .inl hr
    refine .inr ⟨root, by simp [tree], ?_, ?_⟩
    · rcases (hmem s).mp hs with rfl | rfl | rfl
      · exact (hr rfl).elim
      · rfl
      · rfl
    · have hno : m ∉ recv m1 := by
        intro hm
        have := copy_hash Avro.codec_lawful (hcorrect root (by simp [tree])) (recv_copy (ms := m1) (fun _ h => h) hm)
        exact hr (hT.supplied.inj _ _ (List.mem_append_left _ hs) (by simp [tree]) (hb.symm.trans this))
      have hpre : ∀ x ∈ recv m1, x ∈ l1 := by
        rcases List.append_eq_append_iff.mp e with ⟨u, hu1, hu2⟩ | ⟨u, hu1, hu2⟩
        · intro x hx; rw [hu1]; simp [hx]
        · rcases u with _ | ⟨y, u⟩
          · rw [hu1]; simp
          · simp at hu2
            exact (hno (by rw [hu1, ← hu2.1]; simp)).elim
      intro x hx
      obtain ⟨y, hy, hxy⟩ := recv_all m1 x hx
      exact ⟨y, hpre y hy, hxy⟩
  have hSF : StoredFirst ⟨exProducer.schema, exNext, exSubs, m2⟩ tree (recv m1 ++ (recv m2 ++ (recv m4 ++ (recv m3 ++ recv m2)))) := by
    intro l1 m l2 e _ s hs hb
    rcases (hmem s).mp hs with rfl | rfl | rfl
    · exact .inr (.inl (show (300 : Int) < 310 by decide))
    · exact .inl rfl
    · have hno : m ∉ recv m1 ++ recv m2 := by
        intro hm
        rcases List.mem_append.mp hm with hm | hm
        · have := copy_hash Avro.codec_lawful (hcorrect root (by simp [tree])) (recv_copy (ms := m1) (fun _ h => h) hm)
          exact absurd (hb.symm.trans this) (show exHash 5 ≠ exHash 1 by decide)
        · have := copy_hash Avro.codec_lawful (hcorrect ⟨exProducer.schema, exNext, exSubs, m2⟩ (by simp [tree])) (recv_copy (ms := m2) (fun _ h => h) hm)
          exact absurd (hb.symm.trans this) (show exHash 5 ≠ exHash 3 by decide)
      have hpre : ∀ x ∈ recv m1 ++ recv m2, x ∈ l1 := by
        rw [← List.append_assoc] at e
        rcases List.append_eq_append_iff.mp e with ⟨u, hu1, hu2⟩ | ⟨u, hu1, hu2⟩
        · intro x hx; rw [hu1]; exact List.mem_append_left _ hx
        · rcases u with _ | ⟨y, u⟩
          · rw [hu1]; simp
          · simp at hu2
            exact (hno (by rw [hu1, ← hu2.1]; simp)).elim
      right; right
      intro x hx
      obtain ⟨y, hy, hxy⟩ := recv_all m2 x hx
      exact ⟨y, hpre y (by simp [hy]), hxy⟩
  have hA : ∀ s ∈ tree, AllArrive s.msgs (recv m1 ++ (recv m2 ++ (recv m4 ++ (recv m3 ++ recv m2)))) := by
    intro s hs x hx
    rcases (hmem s).mp hs with rfl | rfl | rfl
    · obtain ⟨m, hm, e⟩ := recv_all m1 x hx
      exact ⟨m, by simp [hm], e⟩
    · obtain ⟨m, hm, e⟩ := recv_all m2 x hx
      exact ⟨m, by simp [hm], e⟩
    · obtain ⟨m, hm, e⟩ := recv_all m3 x hx
      exact ⟨m, by simp [hm], e⟩
  have hw : ((tree ++ [stray]).length : Int) ≤ 2 * exStoredCfg.reorgThreshold := by show (4 : Int) ≤ 2 * 2; decide
  have hst : ∃ s0, Sys.start exStoredCfg ((recv m1 ++ (recv m2 ++ (recv m4 ++ (recv m3 ++ recv m2)))).map Call.msg) = .ok s0 := ⟨_, rfl⟩
  obtain ⟨s0, hst⟩ := hst
  obtain ⟨s, hs, hd⟩ := (C131_no_fault (env := exEnv) (o := .plain) hT Avro.codec_lawful hw hst .refl).2
  have hcs := causal_of_none (fun _ => rfl) hs
  have hh : Heard exEnv s := fun t _ n hn => by simp [exEnv] at hn
  obtain ⟨base, chain, top, g1, g2, g3, g4, g5, g6⟩ := C131_end_partial hT Avro.codec_lawful hw hF hSF hA hst hcs hd hh
  refine ⟨root, ⟨exProducer.schema, exNext, exSubs, m2⟩, tree, [stray], _, rfl, by simp, fun e => absurd (congrArg (fun s : SentBlock => s.args.hash) e) (show exHash 1 ≠ exHash 3 by decide), hT, hw, hF, hSF, hA, s0, s, base, chain, hst, hcs, hd, hh, g1, ?_⟩
  rw [g3]
  have h320 := g5 ⟨exProducer.schema, exForkBlock, exSubs, m3⟩ (by simp [tree])
  rcases (hmem top).mp g4 with rfl | rfl | rfl
  · exact absurd h320 (show ¬ (320 : Int) ≤ 300 by decide)
  · exact absurd h320 (show ¬ (320 : Int) ≤ 310 by decide)
  · rfl

end Verif
