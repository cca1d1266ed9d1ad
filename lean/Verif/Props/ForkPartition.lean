import Verif.Props.ForkLives
/-! # C148, one partition: the order that a restarted consumer needs comes from the order in which the blocks were produced -/
namespace Verif

/-- The blocks of a tree in the order in which they were produced, parents first. -/
structure Spec.ProducedTree (C : Codec) (cfg : Config) (first : SentBlock) (all : List SentBlock) : Prop where
  head : all.head? = some first
  heavy : 0 < first.args.weight
  low : first.args.parentHash ∉ all.map (·.args.hash)
  /-- each block comes after its parent, which is lighter and one lower -/
  parents : ∀ l1 s l2, all = l1 ++ s :: l2 → l1 = [] ∨ ∃ p ∈ l1, p.args.hash = s.args.parentHash ∧ s.args.number = p.args.number + 1 ∧ p.args.weight < s.args.weight
  /-- hashes do not collide -/
  distinct : (Hash.zero :: all.map (·.args.hash)).Nodup
  /-- the whitelist does not forbid them -/
  whitelist : ∀ s ∈ all, ∀ h, cfg.whitelist.get? (heightKey s.args.number) = some h → h = s.args.hash
  /-- produced by successful `AddBlock` and `SendBatch` calls -/
  correct : ∀ s ∈ all, s.Correct C

/-- `s` is `root` or descends from it, within `c`. -/
inductive Spec.Descends (c : List SentBlock) (root : SentBlock) : SentBlock → Prop
  | root : root ∈ c → Spec.Descends c root root
  | child {p s : SentBlock} : Spec.Descends c root p → s ∈ c → p.args.hash = s.args.parentHash → Spec.Descends c root s

/-- What a reader finds that begins somewhere: the blocks `cut` are those of which it misses the beginning, the blocks `c` come right after. The stored block `st` is among `c`; `root` is
the lowest of its ancestors among `c`. -/
structure Spec.Stretch (cfg : Config) (all cut c : List SentBlock) (st root : SentBlock) : Prop where
  part : ∃ pre post, all = pre ++ (cut ++ (c ++ post))
  low : root.args.parentHash ∉ c.map (·.args.hash)
  stored : Descends c root st
  fits : ((c ++ cut).length : Int) ≤ 2 * cfg.reorgThreshold

/-- It also reaches back far enough: all blocks of `c` that do not descend from `root` are lighter than `st`. -/
structure Spec.Window (cfg : Config) (all cut c : List SentBlock) (st root : SentBlock) : Prop extends Spec.Stretch cfg all cut c st root where
  strays : ∀ s ∈ c, Descends c root s ∨ s.args.weight < st.args.weight

/-- Apart from heartbeats and pings, the messages are the last messages of the blocks `cut` and then the first messages of the blocks `c`, block by block (possibly not all of them);
of each block in `cut` something is missing. -/
structure Spec.Written (tracked : GoStr → Bool) (cut c : List SentBlock) (ms : List RMsg) : Prop where
  inOrder : ∃ v, v <:+ cut.flatMap (·.msgs) ∧
    (ms.filter (fun r => decide (r.key ≠ [] ∧ r.key.head? ≠ some PingType))).map (fun r => (⟨r.key, r.value⟩ : Msg)) <+: v ++ c.flatMap (·.msgs)
  missing : ∀ s ∈ cut, Incomplete tracked s ms

/-- Several lives of a Kafka consumer of one partition. Each life starts from the block stored and reads the messages of a window of the blocks. -/
inductive Spec.PartitionLives (C : Codec) (cfg : Config) (all : List SentBlock) (first : SentBlock) : List OOut → SentBlock → Prop
  | first : Spec.PartitionLives C cfg all first [] first
  | life {log : List OOut} {st root st' : SentBlock} {cut c : List SentBlock} {start : Int} {ms : List RMsg} {env : Env} {o : MapOrder}
      {topic : GoStr} {k0 k : KSys} :
      Spec.PartitionLives C cfg all first log st → Spec.Window cfg all cut c st root → Spec.Written cfg.tracked cut c ms → (∃ m ∈ ms, start ≤ m.offset) →
      KSys.start (Spec.startOn cfg st) 1 (fun _ => start) (fun _ => ms) = .ok k0 → Spec.KCausal C env o topic k0 k →
      st' ∈ all → st'.args.hash = Spec.headAfter st.args.hash k.sys.omp.log →
      Spec.PartitionLives C cfg all first (log ++ k.sys.omp.log) st'

/-- All blocks produced before `st` are lighter. -/
def Spec.Record (all : List SentBlock) (st : SentBlock) : Prop := st ∈ all ∧ ∀ l1 l2, all = l1 ++ st :: l2 → ∀ s ∈ l1, s.args.weight < st.args.weight

open Spec

section
variable {C : Codec} {env : Env} {o : MapOrder} {cfg : Config} {root first st : SentBlock} {all cut c : List SentBlock} {start : Int} {ms : List RMsg} {topic : GoStr}

theorem split_unique {l1 l1' l2 l2' : List SentBlock} {s : SentBlock} (hd : ((l1 ++ s :: l2).map (·.args.hash)).Nodup) (e : l1 ++ s :: l2 = l1' ++ s :: l2') :
    l1 = l1' ∧ l2 = l2' := by
  induction l1 generalizing l1' with
  | nil =>
    cases l1' with
    | nil => simpa using e
    | cons x l1' =>
      simp only [List.nil_append, List.cons_append, List.cons.injEq] at e
      obtain ⟨rfl, rfl⟩ := e
      simp at hd
  | cons y l1 ih =>
    cases l1' with
    | nil =>
      simp only [List.nil_append, List.cons_append, List.cons.injEq] at e
      obtain ⟨rfl, rfl⟩ := e
      simp at hd
    | cons x l1' =>
      simp only [List.cons_append, List.cons.injEq] at e
      obtain ⟨rfl, e⟩ := e
      simp only [List.cons_append, List.map_cons] at hd
      obtain ⟨rfl, rfl⟩ := ih (List.nodup_cons.mp hd).2 e
      exact ⟨rfl, rfl⟩

theorem Spec.ProducedTree.inj (h : ProducedTree C cfg first all) {s s' : SentBlock} (hs : s ∈ all) (hs' : s' ∈ all) (e : s.args.hash = s'.args.hash) : s = s' := by
  have h2 := (List.nodup_cons.mp h.distinct).2
  have fa := find_hash h2 hs
  have fb := find_hash h2 hs'
  rw [e, fb] at fa
  cases fa; rfl

/-- All blocks have positive weights. -/
theorem Spec.ProducedTree.positive (h : ProducedTree C cfg first all) : ∀ n, ∀ l1 s l2, l1.length ≤ n → all = l1 ++ s :: l2 → 0 < s.args.weight := by
  intro n
  induction n with
  | zero =>
    intro l1 s l2 hl e
    have : l1 = [] := List.length_eq_zero_iff.mp (by omega)
    subst this
    have hh := h.head
    rw [e] at hh
    cases hh
    exact h.heavy
  | succ n ih =>
    intro l1 s l2 hl e
    rcases h.parents l1 s l2 e with rfl | ⟨p, hp, e1, e2, e3⟩
    · exact ih [] s l2 (by simp) e
    · obtain ⟨a, b, rfl⟩ := List.append_of_mem hp
      have := ih a p (b ++ s :: l2) (by simp at hl; omega) (by rw [e]; simp)
      omega

/-- Parents are lighter, one lower, and come first. -/
theorem Spec.ProducedTree.parent_of (h : ProducedTree C cfg first all) {l1 l2 : List SentBlock} {s p : SentBlock} (e : all = l1 ++ s :: l2) (hp : p ∈ all)
    (ep : p.args.hash = s.args.parentHash) : p ∈ l1 ∧ s.args.number = p.args.number + 1 ∧ p.args.weight < s.args.weight := by
  rcases h.parents _ _ _ e with e0 | ⟨q, hq, e1, e2, e3⟩
  · -- the very first block has no parent
    rw [e0] at e
    have hh := h.head
    rw [e] at hh
    cases hh
    exact (h.low (List.mem_map.mpr ⟨p, hp, ep⟩)).elim
  · have : q = p := h.inj (by rw [e]; exact List.mem_append_left _ hq) hp (by rw [e1, ep])
    subst this
    exact ⟨hq, e2, e3⟩

theorem Spec.Descends.mem {s : SentBlock} (h : Descends c root s) : s ∈ c := by cases h <;> assumption

theorem Spec.Descends.root_mem {s : SentBlock} (h : Descends c root s) : root ∈ c := by
  induction h with
  | root h => exact h
  | child _ _ _ ih => exact ih

/-- In a window every block that descends from the root comes after its parent. -/
theorem Spec.Stretch.order (hw : Stretch cfg all cut c st root) (h : ProducedTree C cfg first all) {l1 l2 : List SentBlock} {s : SentBlock} (e : c = l1 ++ s :: l2)
    (hs : Descends c root s) : s = root ∨ ∃ p ∈ l1, Descends c root p ∧ p.args.hash = s.args.parentHash := by
  obtain ⟨pre, post, ea⟩ := hw.part
  cases hs with
  | root => exact .inl rfl
  | @child p _ hp _ ep =>
    right
    have ea' : all = (pre ++ (cut ++ l1)) ++ s :: (l2 ++ post) := by rw [ea, e]; simp
    have hpa : p ∈ all := by rw [ea]; simp [hp.mem]
    obtain ⟨hq, -⟩ := h.parent_of ea' hpa ep
    refine ⟨p, ?_, hp, ep⟩
    rw [← List.append_assoc] at hq
    rcases List.mem_append.mp hq with hq | hq
    · -- it cannot be before the window and in it
      have hnd := (List.nodup_cons.mp h.distinct).2
      rw [ea, ← List.append_assoc, List.map_append] at hnd
      have := (List.nodup_append.mp hnd).2.2 p.args.hash (List.mem_map.mpr ⟨p, hq, rfl⟩) p.args.hash (List.mem_map.mpr ⟨p, by simp [hp.mem], rfl⟩)
      exact (this rfl).elim
    · exact hq

/-- The blocks before the stored one in a window are lighter. -/
theorem Spec.Stretch.lighter (hw : Stretch cfg all cut c st root) (hr : Record all st) {l1 l2 : List SentBlock} (e : c = l1 ++ st :: l2) :
    ∀ s ∈ l1, s.args.weight < st.args.weight := by
  obtain ⟨pre, post, ea⟩ := hw.part
  intro s hs
  exact hr.2 (pre ++ (cut ++ l1)) (l2 ++ post) (by rw [ea, e]; simp) s (by simp [hs])

open Classical in
/-- The blocks of the window that descend from the root. -/
noncomputable def inTree (c : List SentBlock) (root : SentBlock) : List SentBlock := c.filter (fun s => decide (Descends c root s))

open Classical in
/-- The other blocks of which something is read. -/
noncomputable def notInTree (cut c : List SentBlock) (root : SentBlock) : List SentBlock := c.filter (fun s => !decide (Descends c root s)) ++ cut

theorem mem_inTree {s : SentBlock} : s ∈ inTree c root ↔ Descends c root s := by
  unfold inTree
  rw [List.mem_filter]
  exact ⟨fun h => by simpa using h.2, fun h => ⟨h.mem, by simpa using h⟩⟩

theorem mem_notInTree {s : SentBlock} : s ∈ notInTree cut c root ↔ (s ∈ c ∧ ¬ Descends c root s) ∨ s ∈ cut := by
  unfold notInTree
  rw [List.mem_append, List.mem_filter]
  simp

theorem both_perm : (inTree c root ++ notInTree cut c root).Perm (c ++ cut) := by
  unfold inTree notInTree
  rw [← List.append_assoc]
  exact (List.filter_append_perm _ c).append_right cut

theorem Spec.Stretch.mem_all (hw : Stretch cfg all cut c st root) {s : SentBlock} (hs : s ∈ inTree c root ++ notInTree cut c root) : s ∈ all := by
  obtain ⟨pre, post, ea⟩ := hw.part
  rcases List.mem_append.mp (both_perm.mem_iff.mp hs) with hs | hs <;> rw [ea] <;> simp [hs]

theorem Spec.Stretch.shape (hw : Stretch cfg all cut c st root) (h : ProducedTree C cfg first all) (hwr : Written cfg.tracked cut c ms) :
    TreeBelow C (startOn cfg st) root st (inTree c root) (notInTree cut c root) (ms.filter (fun m => Ordinary m)) := by
  obtain ⟨pre, post, ea⟩ := hw.part
  have hpos : ∀ x ∈ all, 0 < x.args.weight := by
    intro x hx
    obtain ⟨a, b, e⟩ := List.append_of_mem hx
    exact h.positive a.length a x b (Nat.le_refl _) e
  have hst : st ∈ inTree c root := mem_inTree.mpr hw.stored
  refine ⟨⟨mem_inTree.mpr (.root hw.stored.root_mem), ?_, ?_, ?_, ?_, fun s hs => hpos s (hw.mem_all hs), ?_, fun s hs => h.whitelist s (hw.mem_all hs), hst, rfl, ?_⟩,
    fun s hs => h.correct s (hw.mem_all hs), ?_, ?_⟩
  · intro hin
    obtain ⟨p, hp, ep⟩ := List.mem_map.mp hin
    exact hw.low (List.mem_map.mpr ⟨p, (mem_inTree.mp hp).mem, ep⟩)
  · intro s hs
    cases mem_inTree.mp hs with
    | root => exact .inl rfl
    | @child p _ hp _ ep => exact .inr ⟨p, mem_inTree.mpr hp, ep⟩
  · intro s hs p hp e
    obtain ⟨l1, l2, el⟩ := List.append_of_mem (hw.mem_all hs)
    exact (h.parent_of el (hw.mem_all hp) e).2
  · intro s hs t ht e
    obtain ⟨l1, l2, el⟩ := List.append_of_mem (hw.mem_all hs)
    obtain ⟨k1, k2, ek⟩ := List.append_of_mem (hw.mem_all ht)
    rcases h.parents _ _ _ el with e0 | ⟨p, hp, e1, e2, _⟩
    · rcases h.parents _ _ _ ek with e0' | ⟨q, hq, e1', _⟩
      · rw [e0] at el
        rw [e0', el] at ek
        cases ek
        rfl
      · have hh := h.head
        rw [el, e0] at hh
        cases hh
        exact (h.low (List.mem_map.mpr ⟨q, by rw [ek]; simp [hq], e1'.trans e.symm⟩)).elim
    · have := (h.parent_of ek (p := p) (by rw [el]; simp [hp]) (e1.trans e)).2.1
      omega
  · have hnd := h.distinct
    have hsub : ((cut ++ c).map (·.args.hash)).Sublist (all.map (·.args.hash)) := by
      rw [ea, ← List.append_assoc cut]
      exact ((List.sublist_append_left _ post).trans (List.sublist_append_right pre _)).map _
    refine List.Perm.nodup ?_ (hnd.sublist (hsub.cons_cons _))
    refine List.Perm.cons _ (List.Perm.map _ ?_)
    exact (both_perm.trans List.perm_append_comm).symm
  · have := hpos st (hw.mem_all (List.mem_append_left _ hst))
    simp only [startOn]
    omega
  · intro m hm
    obtain ⟨hm, ho⟩ := List.mem_filter.mp hm
    have ho : Ordinary m := by simpa using ho
    obtain ⟨v, hv, hp⟩ := hwr.inOrder
    have hx : (⟨m.key, m.value⟩ : Msg) ∈ v ++ c.flatMap (·.msgs) := hp.subset
      (List.mem_map.mpr ⟨m, List.mem_filter.mpr ⟨hm, by simp [ho.1, ho.2.2.1]⟩, rfl⟩)
    rcases List.mem_append.mp hx with hx | hx
    · obtain ⟨s, hs, hx⟩ := List.mem_flatMap.mp (hv.subset hx)
      exact ⟨s, both_perm.mem_iff.mpr (List.mem_append_right _ hs), _, hx, rfl, rfl⟩
    · obtain ⟨s, hs, hx⟩ := List.mem_flatMap.mp hx
      exact ⟨s, both_perm.mem_iff.mpr (List.mem_append_left _ hs), _, hx, rfl, rfl⟩
  · intro s hs
    rcases mem_notInTree.mp hs with ⟨hs, hn⟩ | hs
    · right
      refine ⟨?_, ?_⟩
      · intro hin
        obtain ⟨p, hp, ep⟩ := List.mem_map.mp hin
        exact hn (.child (mem_inTree.mp hp) hs ep)
      · intro e
        exact hw.low (List.mem_map.mpr ⟨s, hs, e.symm⟩)
    · left
      obtain ⟨x, hx, h1, h2⟩ := hwr.missing s hs
      exact ⟨x, hx, h1, fun m hm => h2 m (List.mem_filter.mp hm).1⟩

/-- The messages before the header of a block contain all messages of the blocks of the window before it. -/
theorem written_before (hw : Stretch cfg all cut c st root) (h : ProducedTree C cfg first all) (hC : C.Lawful) (hwr : Written cfg.tracked cut c ms)
    {l1 l2 : List RMsg} {m : RMsg} (e : ms = l1 ++ m :: l2) (ht : m.key.head? = some BatchType) {s : SentBlock} (hs : s ∈ c) (hb : blockOf m.key = s.args.hash) :
    ∃ c1 c2, c = c1 ++ s :: c2 ∧ ∀ p ∈ c1, AllArrive p.msgs l1 := by
  obtain ⟨pre, post, ea⟩ := hw.part
  have hmem : ∀ x ∈ c, x ∈ all := fun x hx => by rw [ea]; simp [hx]
  have hne : m.key ≠ [] := by intro e; rw [e] at ht; simp at ht
  have hping : m.key.head? ≠ some PingType := by rw [ht]; decide
  obtain ⟨v, hv, t, hst⟩ := hwr.inOrder
  rw [e, List.filter_append, List.filter_cons_of_pos (by simp [hne, hping]), List.map_append, List.map_cons, List.append_assoc, List.cons_append] at hst
  -- the header is not in what is left of the cut blocks
  have hno : (⟨m.key, m.value⟩ : Msg) ∉ v := by
    intro hin
    obtain ⟨s', hs', hx⟩ := List.mem_flatMap.mp (hv.subset hin)
    have hs'a : s' ∈ all := by rw [ea]; simp [hs']
    have := (copy_hash hC (h.correct s' hs'a) ⟨_, hx, rfl, rfl⟩).symm.trans hb
    have hnd := (List.nodup_cons.mp h.distinct).2
    rw [ea, List.map_append] at hnd
    have hnd := (List.nodup_append.mp hnd).2.1
    rw [List.map_append] at hnd
    exact (List.nodup_append.mp hnd).2.2 s'.args.hash (List.mem_map.mpr ⟨s', hs', rfl⟩) s.args.hash (List.mem_map.mpr ⟨s, by simp [hs], rfl⟩) this
  obtain ⟨u, eu1, eu2⟩ : ∃ u, (l1.filter (fun r => decide (r.key ≠ [] ∧ r.key.head? ≠ some PingType))).map (fun r => (⟨r.key, r.value⟩ : Msg)) = v ++ u ∧
      c.flatMap (·.msgs) = u ++ (⟨m.key, m.value⟩ : Msg) :: ((l2.filter (fun r => decide (r.key ≠ [] ∧ r.key.head? ≠ some PingType))).map (fun r => (⟨r.key, r.value⟩ : Msg)) ++ t) := by
    rcases List.append_eq_append_iff.mp hst with ⟨u, hu1, hu2⟩ | ⟨u, hu1, hu2⟩
    · rcases u with _ | ⟨y, u⟩
      · exact ⟨[], by simpa using hu1.symm, by simpa using hu2.symm⟩
      · simp only [List.cons_append, List.cons.injEq] at hu2
        exact (hno (by rw [hu1, hu2.1]; simp)).elim
    · exact ⟨u, hu1, hu2⟩
  obtain ⟨c1, s', c2, e1, e2, e3⟩ := flatMap_split eu2
  have hs' : s' ∈ c := by rw [e1]; simp
  have hss : s' = s := h.inj (hmem s' hs') (hmem s hs) ((copy_hash hC (h.correct s' (hmem s' hs')) ⟨_, e2, rfl, rfl⟩).symm.trans hb)
  subst hss
  refine ⟨c1, c2, e1, ?_⟩
  intro p hp x hx
  have : x ∈ (l1.filter (fun r => decide (r.key ≠ [] ∧ r.key.head? ≠ some PingType))).map (fun r => (⟨r.key, r.value⟩ : Msg)) := by
    rw [eu1]; exact List.mem_append_right _ (e3 p hp x hx)
  obtain ⟨y, hy, rfl⟩ := List.mem_map.mp this
  exact ⟨y, (List.mem_filter.mp hy).1, rfl, _, hx, rfl, rfl⟩

/-- What one life finds in the partition. -/
theorem Spec.Stretch.given (hw : Stretch cfg all cut c st root) (h : ProducedTree C cfg first all) (hC : C.Lawful) (hr : Record all st) (hwr : Written cfg.tracked cut c ms)
    (hwarm : ∃ m ∈ ms, start ≤ m.offset) :
    KafkaLifeGiven C cfg all st root (inTree c root) (notInTree cut c root) 1 (fun _ => start) (fun _ => ms) := by
  have hshape := hw.shape h hwr
  have hone : (List.range 1).flatMap (fun _ => ms) = ms := by simp [List.range_succ]
  refine ⟨fun x hx => hw.mem_all hx, by rw [hone]; exact hshape, by rw [both_perm.length_eq]; exact hw.fits, ?_, ?_, ?_, fun _ _ => hwarm⟩
  · intro i _ m hm
    by_cases e1 : m.key = []
    · exact .inl e1
    by_cases e2 : m.key.head? = some PingType
    · exact .inr (.inl e2)
    right; right
    obtain ⟨v, hv, hp⟩ := hwr.inOrder
    have hx : (⟨m.key, m.value⟩ : Msg) ∈ v ++ c.flatMap (·.msgs) := hp.subset
      (List.mem_map.mpr ⟨m, List.mem_filter.mpr ⟨hm, by simp [e1, e2]⟩, rfl⟩)
    rcases List.mem_append.mp hx with hx | hx
    · obtain ⟨s, hs, hx⟩ := List.mem_flatMap.mp (hv.subset hx)
      exact ⟨s, both_perm.mem_iff.mpr (List.mem_append_right _ hs), _, hx, rfl, rfl⟩
    · obtain ⟨s, hs, hx⟩ := List.mem_flatMap.mp hx
      exact ⟨s, both_perm.mem_iff.mpr (List.mem_append_left _ hs), _, hx, rfl, rfl⟩
  · intro i _ l1 m l2 e ht s hs hb
    have hs := mem_inTree.mp hs
    obtain ⟨c1, c2, e1, e2⟩ := written_before hw h hC hwr e ht hs.mem hb
    rcases hw.order h e1 hs with k | ⟨p, hp, e3, e4⟩
    · exact .inl k
    · exact .inr ⟨p, mem_inTree.mpr e3, e4, e2 p hp⟩
  · intro i _ l1 m l2 e ht s hs hb
    have hs := mem_inTree.mp hs
    obtain ⟨c1, c2, e1, e2⟩ := written_before hw h hC hwr e ht hs.mem hb
    by_cases hss : s = st
    · exact .inl hss
    · right
      have : st ∈ c1 ++ s :: c2 := by rw [← e1]; exact hw.stored.mem
      rcases List.mem_append.mp this with k | k
      · exact .inr (e2 st k)
      · left
        rcases List.mem_cons.mp k with k | k
        · exact (hss k.symm).elim
        · obtain ⟨a, b, rfl⟩ := List.append_of_mem k
          exact hw.lighter hr (l1 := c1 ++ s :: a) (l2 := b) (by rw [e1]; simp) s (by simp)

/-- The next block stored is again heavier than all blocks before it. -/
theorem record_next (h : ProducedTree C cfg first all) (hC : C.Lawful) (hw : Window cfg all cut c st root) (hr : Record all st) (hwr : Written cfg.tracked cut c ms)
    (hwarm : ∃ m ∈ ms, start ≤ m.offset) {k0 k : KSys} (h0 : KSys.start (startOn cfg st) 1 (fun _ => start) (fun _ => ms) = .ok k0)
    (hk : KCausal C env o topic k0 k) {st' : SentBlock} (hin : st' ∈ all) (heq : st'.args.hash = headAfter st.args.hash k.sys.omp.log) : Record all st' := by
  have hG := hw.given h hC hr hwr hwarm
  have hv := kinv_steps h0 hk.steps
  obtain ⟨s0, r1, r2⟩ := kcausal_run h0 hk
  have hL := hG.inside hC hv
  have hS := hL.blocks.supplied
  obtain ⟨pre, post, ea⟩ := hw.part
  have hmem : ∀ x ∈ inTree c root ++ notInTree cut c root, x ∈ all := fun x hx => hw.mem_all hx
  obtain ⟨-, g2, g3⟩ := C131_head_partial hL.blocks hC hL.window hL.follow hL.storedFirst r1 r2
  have key := undisturbed_of hS hC r1 (fun _ hs key => (hL.blocks.consequences hC hL.window hL.follow hL.storedFirst r1 hs key).1) r2
  obtain ⟨omp0', ds', ho', h4', h5', hex', hh⟩ := life_inside hL hC r1 r2
  obtain ⟨st2, k1, k2, k3⟩ := C148_stored hL hC r1 r2
  have : st2 = st' := h.inj (hmem st2 (List.mem_append_left _ k1)) hin (by rw [k2, heq])
  subst this
  refine ⟨hin, ?_⟩
  by_cases hst : (startOn cfg st).lastHash ∈ hashes (blocksOf k.sys.ops)
  · obtain ⟨mp0, omp0, ms1, ds, hn, ho, ⟨rest, h1, h2⟩, h3, h4, h5, h6⟩ := hS.inside hC r1 r2.steps
    have hcalls : k.sys.calls = ms1.map Call.msg := by
      have := ((Piped.start r1).steps r2.steps).consists.calls
      rw [h1, h2, List.map_append] at this
      exact (List.append_cancel_right this).symm
    have hds : blocksOf k.sys.ops = ds := by rw [h4, blocksOf_map]
    rw [hds] at g2 hst
    obtain ⟨d1, b, d2, e, e1, e2, e3⟩ := firstHeaviest_filter (g2 hst) (w := st.args.weight.toNat) (by
      obtain ⟨y, hy, ey⟩ := List.mem_map.mp hst
      obtain ⟨sy, hsy, hye⟩ := hS.emitted hC hn (fun m hm => by rw [h1]; simp [hm]) h3 (pb := y) (by rw [h6]; simp [hy])
      have : sy = st := h.inj (hmem sy hsy) (hmem st (List.mem_append_left _ hL.blocks.inTree)) (by rw [← hye.hash, ey]; rfl)
      subst this
      have := hye.weight
      refine ⟨y, hy, by simpa using ⟨sy, hL.blocks.inTree, hye.hash.symm⟩, by omega⟩) (by
      intro y hy hn'
      obtain ⟨sy, hsy, hye⟩ := hS.emitted hC hn (fun m hm => by rw [h1]; simp [hm]) h3 (pb := y) (by rw [h6]; simp [hy])
      have hnt : sy ∉ inTree c root := fun hk => by simp at hn'; exact hn' sy hk hye.hash.symm
      have hlt : sy.args.weight < st.args.weight := by
        rcases List.mem_append.mp hsy with k | k
        · exact (hnt k).elim
        rcases mem_notInTree.mp k with ⟨k, k'⟩ | k
        · exact (hw.strays sy k).resolve_left k'
        · obtain ⟨a1, a2, ea1⟩ := List.append_of_mem hw.stored.mem
          exact hr.2 (pre ++ (cut ++ a1)) (a2 ++ post) (by rw [ea, ea1]; simp) sy (by simp [k])
      have := hye.weight
      omega)
    intro l1 l2 el s hs
    -- `s` is before `st2`: before the window, or in it
    obtain ⟨c1, c2, ec⟩ := List.append_of_mem (mem_inTree.mp k1).mem
    have el' : all = (pre ++ (cut ++ c1)) ++ st2 :: (c2 ++ post) := by rw [ea, ec]; simp
    have hnd := (List.nodup_cons.mp h.distinct).2
    obtain ⟨el1, -⟩ := split_unique (by rw [← el]; exact hnd) (el ▸ el')
    rw [el1, ← List.append_assoc] at hs
    rcases List.mem_append.mp hs with hs | hs
    · -- lighter than `st` already
      obtain ⟨a1, a2, ea1⟩ := List.append_of_mem hw.stored.mem
      have := hr.2 (pre ++ (cut ++ a1)) (a2 ++ post) (by rw [ea, ea1]; simp) s (by simp at hs; rcases hs with hs | hs <;> simp [hs])
      omega
    · have hsc : s ∈ c := by rw [ec]; simp [hs]
      have hsb : s ∈ inTree c root ++ notInTree cut c root := both_perm.mem_iff.mpr (List.mem_append_left _ hsc)
      obtain ⟨x, hx, hxe, k | ⟨p, hp, ⟨q1, q2⟩, a, ha, ea2⟩⟩ := emitted_after (free := fun y => y ≠ st2) (need := fun y p => y = st2 ∧ p = s)
        hS hC (merged_after (free := fun y => y ≠ st2) (need := fun y p => y = st2 ∧ p = s) hL.blocks.correct hC hv (by
          intro i _ l1 m l2 e ht y hy hb
          by_cases hyy : y = st2
          · right
            subst hyy
            obtain ⟨b1, b2, eb1, eb2⟩ := written_before hw.toStretch h hC hwr e ht (mem_inTree.mp k1).mem hb
            refine ⟨s, hsb, ⟨rfl, rfl⟩, eb2 s ?_⟩
            have hndc : ((c1 ++ y :: c2).map (·.args.hash)).Nodup := by
              rw [← ec]
              rw [ea, List.map_append, List.map_append, List.map_append] at hnd
              exact (List.nodup_append.mp (List.nodup_append.mp (List.nodup_append.mp hnd).2.1).2.1).1
            obtain ⟨ee, -⟩ := split_unique hndc (ec ▸ eb1)
            rw [← ee]; exact hs
          · exact .inl hyy)) hn h1 h3 (key mp0 ms1 hn hcalls) d1 b (d2 ++ (k.sys.ch ++ blocksSent k.sys.out)) (by rw [h6, e]; simp)
      · -- `b` is `st2`
        refine (k (h.inj (hmem x hx) hin ?_)).elim
        rw [← hxe.hash, e1, heq, hh]
      · subst q2
        have hlt := e3 a ha
        obtain ⟨sa, hsa, hae⟩ := hS.emitted hC hn (fun m hm => by rw [h1]; simp [hm]) h3 (pb := a) (by rw [h6, e]; simp [ha])
        have : sa = p := h.inj (hmem sa hsa) (hmem p hp) (by rw [← hae.hash, ea2])
        subst this
        have w1 := hae.weight
        have w2 := hxe.weight
        rw [q1] at w2
        omega
  · have : st2 = st := h.inj hin (hmem st (List.mem_append_left _ (mem_inTree.mpr hw.stored))) (by rw [heq, hh]; exact (g3 hst).2)
    rw [this]
    exact hr.2

/-- **C148**, one partition: if the blocks of a tree are written one after the other, parents first, then nothing more is needed of the order: the lives of a consumer that
reads windows of it are lives as in `C148_kafka`. The block stored is always heavier than all that were produced before it. -/
theorem C148_partition (h : ProducedTree C cfg first all) (hC : C.Lawful) {log : List OOut} (hl : PartitionLives C cfg all first log st) :
    KafkaForkLives C cfg all first log st ∧ Record all st := by
  induction hl with
  | first =>
    refine ⟨.first, ?_⟩
    obtain ⟨l, e⟩ : ∃ l, all = first :: l := by
      cases all with
      | nil => have := h.head; simp at this
      | cons x l => have := h.head; simp at this; exact ⟨l, by rw [this]⟩
    refine ⟨by rw [e]; simp, ?_⟩
    intro l1 l2 el
    have hnd := (List.nodup_cons.mp h.distinct).2
    obtain ⟨e1, -⟩ := split_unique (by rw [← el]; exact hnd) (l1' := []) (l2' := l) (by rw [← el, e]; rfl)
    rw [e1]; simp
  | life _ hw hwr hwarm h0 hk hin heq ih =>
    exact ⟨.life ih.1 (hw.given h hC ih.2 hwr hwarm) h0 hk hin heq, record_next h hC hw ih.2 hwr hwarm h0 hk hin heq⟩

/-- **C148**, one partition, the end: when the consumer has come to rest in a life whose window reaches to the last block produced, and all messages were read, the
application, having applied the outputs of all lives, holds a chain of blocks exactly as produced that ends in a heaviest block of all that were ever produced. -/
theorem C148_partition_end (h : ProducedTree C cfg first all) (hC : C.Lawful) {log : List OOut} (hl : PartitionLives C cfg all first log st)
    (hw : Window cfg all cut c st root) (hlast : c <:+ all) (hwr : Written cfg.tracked cut c ms)
    (hall : ∀ s ∈ c, AllArrive s.msgs ms) (hwarm : ∃ m ∈ ms, start ≤ m.offset) {k0 k : KSys}
    (h0 : KSys.start (startOn cfg st) 1 (fun _ => start) (fun _ => ms) = .ok k0) (hk : KCausal C env o topic k0 k) (hstuck : ∀ k', ¬ KSys.Step C env o topic k k')
    (hg : Heard env k.sys) :
    ∃ base chain, ∃ top ∈ all, Replays first.args.hash (log ++ k.sys.omp.log) base chain ∧ Linked base chain ∧ endOf base chain = top.args.hash ∧
      (∀ b ∈ chain, ∃ sb ∈ all, Exact cfg.tracked sb.schema sb.args sb.subs b) ∧ ∀ sb ∈ all, sb.args.weight ≤ top.args.weight := by
  obtain ⟨hkl, hrec⟩ := C148_partition h hC hl
  obtain ⟨base, chain, top, htop, q1, q2, q3, q4, q5, -⟩ := C148_kafka_end h.distinct hC hkl (hw.given h hC hrec hwr hwarm)
    (fun s hs x hx => ⟨0, Nat.one_pos, hall s (mem_inTree.mp hs).mem x hx⟩) h0 hk hstuck hg
  obtain ⟨pre, ea⟩ := hlast
  refine ⟨base, chain, top, hw.mem_all (List.mem_append_left _ htop), q1, q2, q3, q4, ?_⟩
  intro sb hsb
  have w2 := q5 st (mem_inTree.mpr hw.stored)
  rw [← ea] at hsb
  rcases List.mem_append.mp hsb with hsb | hsb
  · obtain ⟨a, b, e⟩ := List.append_of_mem hw.stored.mem
    have w1 := hrec.2 (pre ++ a) b (by rw [← ea, e]; simp) sb (by simp [hsb])
    omega
  · rcases hw.strays sb hsb with k | k
    · exact q5 sb (mem_inTree.mpr k)
    · omega

end

/-! ## Example: nine blocks, and a consumer that is stopped after the first three -/

theorem exNine_produced : ProducedTree Avro.codec exOCfg (bareSent 1 0 0 5) exNine := by
  refine ⟨rfl, by decide, by decide +kernel, ?_, by decide +kernel, ?_, exNine_correct⟩
  · intro l1 s l2 e
    have hcheck : (List.range 9).all (fun n => n == 0 || match exNine[n]? with
        | none => true
        | some s => (exNine.take n).any (fun p => p.args.hash == s.args.parentHash && s.args.number == p.args.number + 1 && decide (p.args.weight < s.args.weight))) = true := by
      decide +kernel
    have hlen : l1.length < 9 := by
      have := congrArg List.length e
      simp [exNine] at this
      omega
    have hn := List.all_eq_true.mp hcheck l1.length (List.mem_range.mpr hlen)
    have h1 : exNine[l1.length]? = some s := by rw [e]; simp
    have h2 : exNine.take l1.length = l1 := by rw [e]; simp
    rw [h1, h2] at hn
    rcases Bool.or_eq_true _ _ ▸ hn with hn | hn
    · left; exact List.length_eq_zero_iff.mp (by simpa using hn)
    · right
      obtain ⟨p, hp, hq⟩ := List.any_eq_true.mp hn
      simp only [Bool.and_eq_true, beq_iff_eq, decide_eq_true_eq] at hq
      exact ⟨p, hp, hq.1.1, hq.1.2, hq.2⟩
  · intro s _ x hx
    simp [exOCfg, exCfg] at hx

/-- What is read of the first three blocks, after a heartbeat, of all nine, and from the third on. -/
def exFirstRead : List RMsg := recv (⟨[], []⟩ :: (exNine.take 3).flatMap (·.msgs))
def exSecondRead : List RMsg := recv (⟨[], []⟩ :: exNine.flatMap (·.msgs))
def exThirdRead : List RMsg := recv (⟨[], []⟩ :: (exNine.drop 2).flatMap (·.msgs))

theorem exFirst_window : Window exOCfg exNine [] (exNine.take 3) (bareSent 1 0 0 5) (bareSent 1 0 0 5) := by
  have d1 : Descends (exNine.take 3) (bareSent 1 0 0 5) (bareSent 1 0 0 5) := .root (by simp [exNine])
  have d2 : Descends (exNine.take 3) (bareSent 1 0 0 5) (bareSent 2 1 1 6) := .child d1 (by simp [exNine]) rfl
  have d3 : Descends (exNine.take 3) (bareSent 1 0 0 5) (bareSent 3 2 2 7) := .child d2 (by simp [exNine]) rfl
  refine ⟨⟨⟨[], exNine.drop 3, by simp⟩, by decide +kernel, d1, by decide⟩, ?_⟩
  intro s hs
  simp only [exNine, List.take_succ_cons, List.take_zero, List.mem_cons, List.not_mem_nil, or_false] at hs
  rcases hs with rfl | rfl | rfl
  · exact .inl d1
  · exact .inl d2
  · exact .inl d3

theorem exSecond_window : Window exOCfg exNine [] exNine (bareSent 3 2 2 7) (bareSent 1 0 0 5) := by
  have d1 : Descends exNine (bareSent 1 0 0 5) (bareSent 1 0 0 5) := .root (by simp [exNine])
  have d2 : Descends exNine (bareSent 1 0 0 5) (bareSent 2 1 1 6) := .child d1 (by simp [exNine]) rfl
  have d3 : Descends exNine (bareSent 1 0 0 5) (bareSent 3 2 2 7) := .child d2 (by simp [exNine]) rfl
  have d6 : Descends exNine (bareSent 1 0 0 5) (bareSent 6 1 1 6) := .child d1 (by simp [exNine]) rfl
  have d4 : Descends exNine (bareSent 1 0 0 5) (bareSent 4 6 2 7) := .child d6 (by simp [exNine]) rfl
  have d5 : Descends exNine (bareSent 1 0 0 5) (bareSent 5 6 2 7) := .child d6 (by simp [exNine]) rfl
  have d7 : Descends exNine (bareSent 1 0 0 5) (bareSent 7 4 3 8) := .child d4 (by simp [exNine]) rfl
  have d8 : Descends exNine (bareSent 1 0 0 5) (bareSent 8 5 3 8) := .child d5 (by simp [exNine]) rfl
  have d9 : Descends exNine (bareSent 1 0 0 5) (bareSent 9 8 4 9) := .child d8 (by simp [exNine]) rfl
  refine ⟨⟨⟨[], [], by simp⟩, by decide +kernel, d3, by decide⟩, ?_⟩
  intro s hs
  simp only [exNine, List.mem_cons, List.not_mem_nil, or_false] at hs
  rcases hs with rfl | rfl | rfl | rfl | rfl | rfl | rfl | rfl | rfl <;> left <;> assumption

/-- Block 3 does not descend from block 6, and is lighter than block 9. Of block 2 nothing is read. -/
theorem exThird_window : Window exOCfg exNine [bareSent 2 1 1 6] (exNine.drop 2) (bareSent 9 8 4 9) (bareSent 6 1 1 6) := by
  have d6 : Descends (exNine.drop 2) (bareSent 6 1 1 6) (bareSent 6 1 1 6) := .root (by simp [exNine])
  have d4 : Descends (exNine.drop 2) (bareSent 6 1 1 6) (bareSent 4 6 2 7) := .child d6 (by simp [exNine]) rfl
  have d5 : Descends (exNine.drop 2) (bareSent 6 1 1 6) (bareSent 5 6 2 7) := .child d6 (by simp [exNine]) rfl
  have d7 : Descends (exNine.drop 2) (bareSent 6 1 1 6) (bareSent 7 4 3 8) := .child d4 (by simp [exNine]) rfl
  have d8 : Descends (exNine.drop 2) (bareSent 6 1 1 6) (bareSent 8 5 3 8) := .child d5 (by simp [exNine]) rfl
  have d9 : Descends (exNine.drop 2) (bareSent 6 1 1 6) (bareSent 9 8 4 9) := .child d8 (by simp [exNine]) rfl
  refine ⟨⟨⟨[bareSent 1 0 0 5], [], by simp [exNine]⟩, by decide +kernel, d9, by decide⟩, ?_⟩
  intro s hs
  simp only [exNine, List.drop_succ_cons, List.drop_zero, List.mem_cons, List.not_mem_nil, or_false] at hs
  rcases hs with rfl | rfl | rfl | rfl | rfl | rfl | rfl
  · exact .inr (show (7 : Int) < 9 by decide)
  all_goals left; assumption

theorem exThird_written : Written exOCfg.tracked [bareSent 2 1 1 6] (exNine.drop 2) exThirdRead := by
  refine ⟨⟨[], List.nil_suffix, by decide +kernel⟩, ?_⟩
  intro s hs
  simp only [List.mem_singleton] at hs
  subst hs
  have : (bareSent 2 1 1 6).msgs.any (fun x => x.key.head? == some BatchType && exThirdRead.all (fun m => m.key != x.key)) = true := by decide +kernel
  obtain ⟨x, hx, h⟩ := List.any_eq_true.mp this
  simp only [Bool.and_eq_true, beq_iff_eq, List.all_eq_true, bne_iff_ne] at h
  exact ⟨x, hx, .inl h.1, h.2⟩

/-- A reader that begins inside a block: all messages of `exBlock` but the first, which is its header, and then those of a block on it. -/
example : 3 ≤ ((bareMsgs exBlock).drop 1).length ∧ Written exOCfg.tracked [⟨exProducer.schema, exBlock, exSubs, bareMsgs exBlock⟩] [bareSent 3 1 6 310]
    (recv ((bareMsgs exBlock).drop 1 ++ (bareSent 3 1 6 310).msgs)) := by
  refine ⟨by decide +kernel, ⟨(bareMsgs exBlock).drop 1, ?_, by decide +kernel⟩, ?_⟩
  · simpa using List.drop_suffix 1 (bareMsgs exBlock)
  intro s hs
  simp only [List.mem_singleton] at hs
  subst hs
  have : (bareMsgs exBlock).any (fun x => x.key.head? == some BatchType &&
      (recv ((bareMsgs exBlock).drop 1 ++ (bareSent 3 1 6 310).msgs)).all (fun m => m.key != x.key)) = true := by decide +kernel
  obtain ⟨x, hx, h⟩ := List.any_eq_true.mp this
  simp only [Bool.and_eq_true, beq_iff_eq, List.all_eq_true, bne_iff_ne] at h
  exact ⟨x, hx, .inl h.1, h.2⟩

/-- The heaviest of the nine. -/
theorem exNine_top {top : SentBlock} (h : top ∈ exNine) (hw : ∀ sb ∈ exNine, sb.args.weight ≤ top.args.weight) : top = bareSent 9 8 4 9 := by
  have h9 := hw (bareSent 9 8 4 9) (by simp [exNine])
  simp only [exNine, List.mem_cons, List.not_mem_nil, or_false] at h
  rcases h with rfl | rfl | rfl | rfl | rfl | rfl | rfl | rfl | rfl
  · exact absurd h9 (show ¬ (9 : Int) ≤ 5 by decide)
  · exact absurd h9 (show ¬ (9 : Int) ≤ 6 by decide)
  · exact absurd h9 (show ¬ (9 : Int) ≤ 7 by decide)
  · exact absurd h9 (show ¬ (9 : Int) ≤ 6 by decide)
  · exact absurd h9 (show ¬ (9 : Int) ≤ 7 by decide)
  · exact absurd h9 (show ¬ (9 : Int) ≤ 7 by decide)
  · exact absurd h9 (show ¬ (9 : Int) ≤ 8 by decide)
  · exact absurd h9 (show ¬ (9 : Int) ≤ 8 by decide)
  · rfl

/-- The first life ends with block 3. -/
theorem exThree_lives : ∃ log, PartitionLives Avro.codec exOCfg exNine (bareSent 1 0 0 5) log (bareSent 3 2 2 7) := by
  have hev : ∀ t, exEnv.evict t = [] := fun _ => rfl
  have hC := Avro.codec_lawful
  have hP := exNine_produced
  have hcov : ∀ (c : List SentBlock) (s : SentBlock), s ∈ c → AllArrive s.msgs (recv (⟨[], []⟩ :: c.flatMap (·.msgs))) := by
    intro c s hs x hx
    obtain ⟨m, hm, e1, e2⟩ := recv_exact (ms := ⟨[], []⟩ :: c.flatMap (·.msgs)) (x := x) (List.mem_cons_of_mem _ (List.mem_flatMap.mpr ⟨s, hs, hx⟩))
    exact ⟨m, hm, e1, x, hx, e1, e2⟩
  have hheard : ∀ k : KSys, Heard exEnv k.sys := fun k t _ n hn => by rw [hev] at hn; simp at hn
  have hwr1 : Written exOCfg.tracked [] (exNine.take 3) exFirstRead := ⟨⟨[], List.nil_suffix, by decide +kernel⟩, by simp⟩
  have hwarm1 : ∃ m ∈ exFirstRead, (0 : Int) ≤ m.offset := ⟨_, List.mem_cons_self, by decide⟩
  have hst : ∃ k0, KSys.start (startOn exOCfg (bareSent 1 0 0 5)) 1 (fun _ => 0) (fun _ => exFirstRead) = .ok k0 := ⟨_, rfl⟩
  obtain ⟨k0, h0⟩ := hst
  obtain ⟨k1, -, hk1, hstuck1⟩ := k_rests (C := Avro.codec) (env := exEnv) (o := .plain) (topic := str "d") hev (k0 := k0) .refl
  have hrec := (C148_partition hP hC .first).2
  obtain ⟨b1, c1, top, htop, q1, -, q3, -, q5, -⟩ := C148_kafka_end hP.distinct hC .first (exFirst_window.given hP hC hrec hwr1 hwarm1)
    (fun s hs x hx => ⟨0, Nat.one_pos, hcov _ s (mem_inTree.mp hs).mem x hx⟩) h0 hk1 hstuck1 (hheard k1)
  have htop : top = bareSent 3 2 2 7 := by
    have d : Descends (exNine.take 3) (bareSent 1 0 0 5) (bareSent 3 2 2 7) :=
      .child (.child (.root (by simp [exNine])) (show bareSent 2 1 1 6 ∈ _ by simp [exNine]) rfl) (by simp [exNine]) rfl
    have h7 := q5 (bareSent 3 2 2 7) (mem_inTree.mpr d)
    have htop := (mem_inTree.mp htop).mem
    simp only [exNine, List.take_succ_cons, List.take_zero, List.mem_cons, List.not_mem_nil, or_false] at htop
    rcases htop with rfl | rfl | rfl
    · exact absurd h7 (show ¬ (7 : Int) ≤ 5 by decide)
    · exact absurd h7 (show ¬ (7 : Int) ≤ 6 by decide)
    · rfl
  subst htop
  have hlive : PartitionLives Avro.codec exOCfg exNine (bareSent 1 0 0 5) k1.sys.omp.log (bareSent 3 2 2 7) := by
    refine .life (log := []) .first exFirst_window hwr1 hwarm1 h0 hk1 (by simp [exNine]) ?_
    rw [← q3, replays_head q1]; rfl
  exact ⟨_, hlive⟩

/-- C148: the first life ends with block 3; the second, started from there, with block 9, on a fork from below block 3; the third reads from block 3 on only and stays there. -/
example : ∃ (k1 k k' : KSys) (base : Hash) (chain : List PB), PartitionLives Avro.codec exOCfg exNine (bareSent 1 0 0 5) k1.sys.omp.log (bareSent 3 2 2 7) ∧
    PartitionLives Avro.codec exOCfg exNine (bareSent 1 0 0 5) (k1.sys.omp.log ++ k.sys.omp.log) (bareSent 9 8 4 9) ∧
    (∃ k0, KSys.start (startOn exOCfg (bareSent 9 8 4 9)) 1 (fun _ => 0) (fun _ => exThirdRead) = .ok k0 ∧ KCausal Avro.codec exEnv .plain (str "d") k0 k') ∧
    Window exOCfg exNine [bareSent 2 1 1 6] (exNine.drop 2) (bareSent 9 8 4 9) (bareSent 6 1 1 6) ∧ Written exOCfg.tracked [bareSent 2 1 1 6] (exNine.drop 2) exThirdRead ∧
    Replays (exHash 1) (k1.sys.omp.log ++ k.sys.omp.log ++ k'.sys.omp.log) base chain ∧ endOf base chain = exHash 9 := by
  have hev : ∀ t, exEnv.evict t = [] := fun _ => rfl
  have hC := Avro.codec_lawful
  have hP := exNine_produced
  have hcov : ∀ (c : List SentBlock) (s : SentBlock), s ∈ c → AllArrive s.msgs (recv (⟨[], []⟩ :: c.flatMap (·.msgs))) := by
    intro c s hs x hx
    obtain ⟨m, hm, e1, e2⟩ := recv_exact (ms := ⟨[], []⟩ :: c.flatMap (·.msgs)) (x := x) (List.mem_cons_of_mem _ (List.mem_flatMap.mpr ⟨s, hs, hx⟩))
    exact ⟨m, hm, e1, x, hx, e1, e2⟩
  have hheard : ∀ k : KSys, Heard exEnv k.sys := fun k t _ n hn => by rw [hev] at hn; simp at hn
  have hwr1 : Written exOCfg.tracked [] (exNine.take 3) exFirstRead := ⟨⟨[], List.nil_suffix, by decide +kernel⟩, by simp⟩
  have hwr2 : Written exOCfg.tracked [] exNine exSecondRead := ⟨⟨[], List.nil_suffix, by decide +kernel⟩, by simp⟩
  have hwarm1 : ∃ m ∈ exFirstRead, (0 : Int) ≤ m.offset := ⟨_, List.mem_cons_self, by decide⟩
  have hwarm2 : ∃ m ∈ exSecondRead, (0 : Int) ≤ m.offset := ⟨_, List.mem_cons_self, by decide⟩
  have hwarm3 : ∃ m ∈ exThirdRead, (0 : Int) ≤ m.offset := ⟨_, List.mem_cons_self, by decide⟩
  -- the first life
  have hst : ∃ k0, KSys.start (startOn exOCfg (bareSent 1 0 0 5)) 1 (fun _ => 0) (fun _ => exFirstRead) = .ok k0 := ⟨_, rfl⟩
  obtain ⟨k0, h0⟩ := hst
  obtain ⟨k1, -, hk1, hstuck1⟩ := k_rests (C := Avro.codec) (env := exEnv) (o := .plain) (topic := str "d") hev (k0 := k0) .refl
  have hrec := (C148_partition hP hC .first).2
  obtain ⟨b1, c1, top, htop, q1, -, q3, -, q5, -⟩ := C148_kafka_end hP.distinct hC .first (exFirst_window.given hP hC hrec hwr1 hwarm1)
    (fun s hs x hx => ⟨0, Nat.one_pos, hcov _ s (mem_inTree.mp hs).mem x hx⟩) h0 hk1 hstuck1 (hheard k1)
  have htop : top = bareSent 3 2 2 7 := by
    have d : Descends (exNine.take 3) (bareSent 1 0 0 5) (bareSent 3 2 2 7) :=
      .child (.child (.root (by simp [exNine])) (show bareSent 2 1 1 6 ∈ _ by simp [exNine]) rfl) (by simp [exNine]) rfl
    have h7 := q5 (bareSent 3 2 2 7) (mem_inTree.mpr d)
    have htop := (mem_inTree.mp htop).mem
    simp only [exNine, List.take_succ_cons, List.take_zero, List.mem_cons, List.not_mem_nil, or_false] at htop
    rcases htop with rfl | rfl | rfl
    · exact absurd h7 (show ¬ (7 : Int) ≤ 5 by decide)
    · exact absurd h7 (show ¬ (7 : Int) ≤ 6 by decide)
    · rfl
  subst htop
  have hlive : PartitionLives Avro.codec exOCfg exNine (bareSent 1 0 0 5) k1.sys.omp.log (bareSent 3 2 2 7) := by
    refine .life (log := []) .first exFirst_window hwr1 hwarm1 h0 hk1 (by simp [exNine]) ?_
    rw [← q3, replays_head q1]; rfl
  -- the second
  have hst : ∃ k0, KSys.start (startOn exOCfg (bareSent 3 2 2 7)) 1 (fun _ => 0) (fun _ => exSecondRead) = .ok k0 := ⟨_, rfl⟩
  obtain ⟨k2, h2⟩ := hst
  obtain ⟨k, -, hk, hstuck⟩ := k_rests (C := Avro.codec) (env := exEnv) (o := .plain) (topic := str "d") hev (k0 := k2) .refl
  obtain ⟨base, chain, top, htop, r1, -, r3, -, r5⟩ := C148_partition_end hP hC hlive exSecond_window (List.suffix_refl _) hwr2 (hcov exNine) hwarm2 h2 hk hstuck (hheard k)
  have := exNine_top htop r5
  subst this
  have hlive2 : PartitionLives Avro.codec exOCfg exNine (bareSent 1 0 0 5) (k1.sys.omp.log ++ k.sys.omp.log) (bareSent 9 8 4 9) := by
    refine .life hlive exSecond_window hwr2 hwarm2 h2 hk (by simp [exNine]) ?_
    have h1 := replays_head r1
    have h2 := replays_head q1
    rw [List.nil_append] at h2
    rw [headAfter_append, ← h2, q3, r3] at h1
    exact h1
  -- the third
  have hst : ∃ k0, KSys.start (startOn exOCfg (bareSent 9 8 4 9)) 1 (fun _ => 0) (fun _ => exThirdRead) = .ok k0 := ⟨_, rfl⟩
  obtain ⟨k3, h3⟩ := hst
  obtain ⟨k', -, hk', hstuck'⟩ := k_rests (C := Avro.codec) (env := exEnv) (o := .plain) (topic := str "d") hev (k0 := k3) .refl
  obtain ⟨base, chain, top, htop, r1, -, r3, -, r5⟩ := C148_partition_end hP hC hlive2 exThird_window (List.drop_suffix _ _) exThird_written (hcov _) hwarm3 h3 hk' hstuck' (hheard k')
  have := exNine_top htop r5
  subst this
  exact ⟨k1, k, k', base, chain, hlive, hlive2, ⟨k3, h3, hk'⟩, exThird_window, exThird_written, r1, r3⟩

end Verif
