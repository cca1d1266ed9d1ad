import Verif.Props.Forks
/-!
# C119: the whole consumer, with forks, without end

C86 is about trees that fit the window. Here the tree is of any size; blocks are forgotten on the way, and eviction requests are sent
and acted on. The hypotheses are about the messages only.
-/
namespace Verif
open Spec

variable {C : Codec} {env : Env} {o : MapOrder}

/-- The messages `received` complete the blocks `order` one after the other. While block `b` is being completed there may be messages
of `b`; copies of messages of the last `n - 1` blocks; and messages other than headers of blocks to come. -/
inductive Spec.BlockByBlock (n : Int) (tree : List SentBlock) : List SentBlock → List RMsg → Prop
  | nil : BlockByBlock n tree [] []
  | next {order : List SentBlock} {received group : List RMsg} {b : SentBlock} : BlockByBlock n tree order received →
      (∀ m ∈ group, Copy b.msgs m ∨ (∃ p a q, order = p ++ a :: q ∧ (q.length : Int) + 1 < n ∧ Copy a.msgs m) ∨
        (m.key.head? ≠ some BatchType ∧ ∃ c ∈ tree, c ∉ order ∧ Copy c.msgs m)) →
      AllArrive b.msgs (received ++ group) → BlockByBlock n tree (order ++ [b]) (received ++ group)

/-- No block to come is lower than a block that is not recent any more. -/
def Spec.NotBelow (n : Int) (order : List SentBlock) : Prop :=
  ∀ p rest, order = p ++ rest → ∀ x ∈ p, ¬ Recent n (p.map bare) x.args.hash → ∀ y ∈ rest, x.args.number ≤ y.args.number

/-! ### Headers -/

/-- The header of a block. -/
def headPart (b : PB) : PB where
  number := b.number
  weight := b.weight
  parentHash := b.parentHash
  hash := b.hash
  values := GMap.empty
  deletes := GMap.empty
  resumption := GMap.empty
  resumptionDefaults := GMap.empty
  prefixes := GMap.empty
  batches := GMap.empty
  pendingBatches := GMap.empty
  pendingMessages := GMap.empty
  waitCh := none
  frp := false

theorem headPart_bare {s : SentBlock} {pb : PB} (h : HeadOf s pb) : headPart pb = bare s := by
  have h1 := h.weight
  have : pb.weight = s.args.weight.toNat := by omega
  simp only [headPart, bare, h.number, h.hash, h.parent, this]

theorem hashes_headPart (l : List PB) : hashes (l.map headPart) = hashes l := by
  simp only [hashes, List.map_map]; rfl

theorem hashes_bare (l : List SentBlock) : hashes (l.map bare) = l.map (·.args.hash) := by
  simp only [hashes, List.map_map]; rfl

theorem recentAt_headPart {n m : Int} {bs : List PB} {h : Hash} (hr : RecentAt n (bs.map headPart) h m) : RecentAt n bs h m := by
  obtain ⟨l1, x, l2, e, e1, e2, e3, V, hV, hV2⟩ := hr
  obtain ⟨k1, k', rfl, rfl, ek⟩ := List.map_eq_append_iff.mp e
  obtain ⟨y, k2, rfl, rfl, rfl⟩ := List.map_eq_cons_iff.mp ek
  refine ⟨k1, y, k2, rfl, e1, by rwa [hashes_headPart] at e2, ?_, V, hV, ?_⟩
  · intro z hz
    exact e3 (headPart z) (by rw [← List.map_cons]; exact List.mem_map.mpr ⟨z, hz, rfl⟩)
  · intro z hz hm
    exact hV2 (headPart z) (List.mem_map.mpr ⟨z, hz, rfl⟩) hm

theorem recent_headPart {n : Int} {bs : List PB} {h : Hash} (hr : Recent n (bs.map headPart) h) : Recent n bs h := by
  obtain ⟨m, hr⟩ := hr
  exact ⟨m, recentAt_headPart hr⟩

theorem above_headPart {bs : List PB} {a h : Hash} (hA : Above (bs.map headPart) a h) : Above bs a h := by
  induction hA with
  | self => exact .self
  | @step b hb _ ih =>
    obtain ⟨c, hc, rfl⟩ := List.mem_map.mp hb
    exact .step (b := c) hc ih

theorem firstHeaviest_headPart {bs : List PB} {h : Hash} (hf : FirstHeaviest bs h) : FirstHeaviest (bs.map headPart) h := by
  obtain ⟨l1, b, l2, rfl, e1, e2, e3⟩ := hf
  refine ⟨l1.map headPart, headPart b, l2.map headPart, by simp, e1, ?_, ?_⟩
  · intro x hx
    obtain ⟨y, hy, rfl⟩ := List.mem_map.mp hx
    exact e2 y hy
  · intro x hx
    obtain ⟨y, hy, rfl⟩ := List.mem_map.mp hx
    exact e3 y hy

theorem tracked_headPart {n : Int} {root : Hash} {bs : List PB} {b : PB} (h : Tracked n root (bs.map headPart) (headPart b)) :
    Tracked n root bs b := by
  rcases h with h | h | ⟨h1, a, h2, h3, h4⟩
  · exact .inl ⟨List.map_eq_nil_iff.mp h.1, h.2⟩
  · exact .inr (.inl (recent_headPart h))
  · rw [hashes_headPart] at h1
    exact .inr (.inr ⟨h1, a, recent_headPart h2, above_headPart h3, fun h hf => above_headPart (h4 h (firstHeaviest_headPart hf))⟩)

theorem allTracked_headPart {n : Int} {root : Hash} {bs : List PB} (h : AllTracked n root (bs.map headPart)) : AllTracked n root bs := by
  intro l1 b l2 e
  subst e
  exact tracked_headPart (h (l1.map headPart) (headPart b) (l2.map headPart) (by simp))

/-! ### The order of the blocks emitted -/

section
variable {cfg : Config} {tree : List SentBlock} {received : List RMsg}

theorem Spec.BlockByBlock.headers {n : Int} {order : List SentBlock} {l : List RMsg} (h : BlockByBlock n tree order l) :
    ∀ m ∈ l, m.key.head? = some BatchType → ∃ a ∈ order, Copy a.msgs m := by
  induction h with
  | nil => simp
  | next _ hg _ ih =>
    intro m hm ht
    rcases List.mem_append.mp hm with hm | hm
    · obtain ⟨a, ha, hc⟩ := ih m hm ht
      exact ⟨a, by simp [ha], hc⟩
    · rcases hg m hm with hc | ⟨p, a, q, e, _, hc⟩ | ⟨h1, _⟩
      · exact ⟨_, by simp, hc⟩
      · exact ⟨a, by rw [e]; simp, hc⟩
      · exact (h1 ht).elim

/-- Blocks emitted while messages without the hash of one are processed. -/
theorem emitted_own {mp0 mp1 mp : MP} {l u : List RMsg} (hn : newMP cfg = .ok mp0) (h1 : mp0.run C env l = .ok mp1)
    (h2 : mp1.run C env u = .ok mp) (hq : ∀ m ∈ u, m.key.headD 0 ≠ ReorgType) {es : List PB} (hes : mp.emitted = mp1.emitted ++ es) :
    ∀ pb ∈ es, ∃ m ∈ u, blockOf m.key = pb.hash := by
  intro pb hpb
  refine Classical.byContradiction fun hc => ?_
  have hB := (Base.newMP hn).run h1
  have := (quiet_parts C env pb.hash mp1.emitted).toParts.run (ms := u) (fun m hm _ e => hc ⟨m, hm, e⟩)
    ⟨hB, (⟨[], by simp, by simp⟩ : Quiet pb.hash mp1.emitted mp1)⟩ h2
  obtain ⟨es', e1, e2⟩ := this.2
  rw [hes] at e1
  have := List.append_cancel_left e1
  exact e2 pb (this ▸ hpb) rfl

/-- When nothing is emitted twice within the window, at most one block is emitted while it is completed. -/
theorem fresh_only {N : Int} {E es : List PB} {bh : Hash} (hN : 0 < N)
    (hrep : ∀ e1 x mid y e3, E ++ es = e1 ++ x :: (mid ++ y :: e3) → x.hash = y.hash → N ≤ mid.length)
    (hes : ∀ pb ∈ es, pb.hash = bh ∨ ∃ p a q, E = p ++ a :: q ∧ (q.length : Int) + 1 < N ∧ pb.hash = a.hash) :
    es = [] ∨ ∃ pb, es = [pb] ∧ pb.hash = bh := by
  rcases es with _ | ⟨x, es⟩
  · exact .inl rfl
  right
  have hx : x.hash = bh := by
    rcases hes x (by simp) with h | ⟨p, a, q, e, hq, e1⟩
    · exact h
    · have := hrep p a q x es (by rw [e]; simp) e1.symm
      omega
  rcases es with _ | ⟨y, es⟩
  · exact ⟨x, rfl, hx⟩
  rcases hes y (by simp) with h | ⟨p, a, q, e, hq, e1⟩
  · have := hrep E x [] y es rfl (hx.trans h.symm)
    simp at this
    omega
  · have := hrep p a (q ++ [x]) y es (by rw [e]; simp) e1.symm
    simp at this
    omega

/-- In the calls before the last one, every request acted on carried the number of a block emitted before that had ceased to be recent. -/
def AskedBefore (C : Codec) (env : Env) (N : Int) (mp0 : MP) (ms : List RMsg) : Prop :=
  ∀ l1 m l2 mp1, ms = l1 ++ m :: l2 → mp0.run C env l1 = .ok mp1 → ∀ t, t < mp1.tick → ∀ k ∈ env.evict t, Forgotten N mp1.emitted k

theorem asked_notBelow {N : Int} {pre post : List SentBlock} {E : List PB} {k : Int} (hnb : NotBelow N (pre ++ post))
    (hE : E.map headPart = pre.map bare) (hk : Forgotten N E k) : ∀ y ∈ post, k ≤ y.args.number := by
  obtain ⟨p, r, rfl, x, hx, hnr, rfl⟩ := hk
  rw [List.map_append] at hE
  obtain ⟨p', r', rfl, e1, e2⟩ := List.map_eq_append_iff.mp hE.symm
  have hx' : headPart x ∈ p'.map bare := by rw [e1]; exact List.mem_map.mpr ⟨x, hx, rfl⟩
  obtain ⟨s, hs, e⟩ := List.mem_map.mp hx'
  have hh : s.args.hash = x.hash := congrArg PB.hash e
  have hnum : s.args.number = x.number := congrArg PB.number e
  intro y hy
  rw [← hnum]
  refine hnb p' (r' ++ post) (by simp) s hs ?_ y (by simp [hy])
  intro hr
  rw [e1, hh] at hr
  exact hnr (recent_headPart hr)

theorem Supplied.emittedInOrder (h : Supplied C tree received) (hC : C.Lawful) {N : Int} (hN : 0 < N) (hcfg : N = 2 * cfg.reorgThreshold) {mp0 : MP}
    (hn : newMP cfg = .ok mp0) (hnb : NotBelow N tree) {pre : List SentBlock} {l : List RMsg} (hb : BlockByBlock N tree pre l) :
    ∀ (post : List SentBlock) (more : List RMsg), tree = pre ++ post → received = l ++ more →
    ∀ (ms rest : List RMsg) (mp : MP), l = ms ++ rest → mp0.run C env ms = .ok mp → AskedBefore C env N mp0 ms →
      (∃ k, k ≤ pre.length ∧ mp.emitted.map headPart = (pre.take k).map bare) ∧
      (rest = [] → (∀ t, t < mp.tick → ∀ k ∈ env.evict t, Forgotten N mp.emitted k) → mp.emitted.map headPart = pre.map bare) := by
  have h0 : mp0.emitted = [] ∧ mp0.reorgThreshold = cfg.reorgThreshold := by
    unfold newMP at hn
    split at hn
    · cases hn
    · cases hn; exact ⟨rfl, rfl⟩
  induction hb with
  | nil =>
    intro post more _ _ ms rest mp e hr _
    obtain ⟨rfl, rfl⟩ := List.append_eq_nil_iff.mp e.symm
    cases hr
    exact ⟨⟨0, by simp, by simp [h0.1]⟩, fun _ _ => by simp [h0.1]⟩
  | @next pre l g b hb hg hall ih =>
    intro post more ht hrec ms rest mp e hr hq
    have ht1 : tree = pre ++ ([b] ++ post) := by rw [ht]; simp
    have hrec1 : received = l ++ (g ++ more) := by rw [hrec]; simp
    have hbt : b ∈ tree := by rw [ht]; simp
    have hbn : b.args.hash ∉ pre.map (·.args.hash) := by
      have := h.nodup
      rw [ht1, List.map_append, List.nodup_append] at this
      intro hm
      exact this.2.2 _ hm _ (by simp) rfl
    -- what is emitted while `b` is completed
    have step : ∀ (u r : List RMsg) (mp1 mp2 : MP), g = u ++ r → mp0.run C env l = .ok mp1 → mp1.run C env u = .ok mp2 →
        mp1.emitted.map headPart = pre.map bare →
        mp2.emitted.map headPart = pre.map bare ∨ mp2.emitted.map headPart = (pre ++ [b]).map bare := by
      intro u r mp1 mp2 eg hr1 hr2 hE
      have hrun := run_append_of hr1 hr2
      obtain ⟨es, hes⟩ := emitted_grows hn hr1 hrun
      have hin : ∀ m ∈ l ++ u, m ∈ received := by
        intro m hm
        rw [hrec1, eg]
        rcases List.mem_append.mp hm with hm | hm <;> simp [hm]
      have hrep : ∀ e1 x mid y e3, mp1.emitted ++ es = e1 ++ x :: (mid ++ y :: e3) → x.hash = y.hash → N ≤ mid.length := by
        intro e1 x mid y e3 e hxy
        have := C03_at_most_once ⟨cfg, mp0, [], hn, rfl⟩ hrun (e1 := e1) (pb1 := x) (mid := mid) (pb2 := y) (e3 := e3)
          (by rw [hes, h0.1, e]; rfl) hxy
        rcases this with ⟨m, hm, hR⟩ | this
        · have := h.types hC m (hin m hm)
          refine (this ?_).elim
          unfold IsReorg at hR
          cases hk : m.key with
          | nil => rw [hk] at hR; simp at hR
          | cons a r => rw [hk] at hR; simpa [ReorgType] using hR
        · rw [h0.2] at this
          have h1 := List.countP_le_length (p := fun pb : PB => decide (pb.hash ≠ x.hash)) (l := mid)
          omega
      have hwho : ∀ pb ∈ es, pb.hash = b.args.hash ∨ ∃ p a q, mp1.emitted = p ++ a :: q ∧ (q.length : Int) + 1 < N ∧ pb.hash = a.hash := by
        intro pb hpb
        obtain ⟨m, hm, em⟩ := emitted_own hn hr1 hr2 (fun m hm => h.types hC m (hin m (by simp [hm]))) hes pb hpb
        rcases hg m (by rw [eg]; simp [hm]) with hc | ⟨p, a, q, e, hq, hc⟩ | ⟨_, c, hct, hcp, hc⟩
        · exact .inl (em.symm.trans (copy_hash hC (h.correct b hbt) hc))
        · right
          have hat : a ∈ tree := by rw [ht1, e]; simp
          have eh := em.symm.trans (copy_hash hC (h.correct a hat) hc)
          rw [e, List.map_append, List.map_cons] at hE
          obtain ⟨p', r', e1, e2, e3⟩ := List.map_eq_append_iff.mp hE
          obtain ⟨x, q', rfl, e4, e5⟩ := List.map_eq_cons_iff.mp e3
          refine ⟨p', x, q', e1, ?_, ?_⟩
          · have := congrArg List.length e5
            simp at this
            omega
          · rw [eh]
            exact (congrArg PB.hash e4).symm
        · -- its header has not been received
          left
          have hpb' : pb ∈ mp2.emitted := by rw [hes]; simp [hpb]
          obtain ⟨hd, _, hof, _⟩ := ((prov_parts C env (· ∈ l ++ u) (run_ok_len hrun) cfg.tracked cfg.frp).emitted hn
            (by intro s o hs; simp at hs) (fun m hm => hm) hrun pb hpb').1.head
          have hco := hb.next hg hall
          obtain ⟨a, ha, hca⟩ := hco.headers hd (by
            have := hof.mem
            rw [eg]
            rcases List.mem_append.mp this with h | h <;> simp [h]) hof.type
          have hat : a ∈ tree := by rw [ht]; simp only [List.mem_append] at ha ⊢; exact .inl ha
          have e1 := hof.block.symm.trans (copy_hash hC (h.correct a hat) hca)
          have e2 := em.symm.trans (copy_hash hC (h.correct c hct) hc)
          have e3 := h.inj c a hct hat (e2.symm.trans e1)
          subst e3
          rcases List.mem_append.mp ha with ha | ha
          · exact (hcp ha).elim
          · rw [e1, List.mem_singleton.mp ha]
      rcases fresh_only hN hrep hwho with rfl | ⟨pb, rfl, hpb⟩
      · left
        rw [hes, List.append_nil]; exact hE
      · right
        obtain ⟨s, hs, hex⟩ := h.emitted hC hn hin hrun (pb := pb) (by rw [hes]; simp)
        have := h.inj s b hs hbt (hex.hash.symm.trans hpb)
        subst this
        rw [hes, List.map_append, hE, List.map_append, List.map_cons, List.map_nil, List.map_cons, List.map_nil,
          headPart_bare ⟨hex.number, hex.weight, hex.hash, hex.parent⟩]
    -- when all its messages have arrived, `b` has been emitted
    have done : ∀ (mp2 : MP), mp0.run C env (l ++ g) = .ok mp2 → (∀ t, t < mp2.tick → ∀ k ∈ env.evict t, Forgotten N mp2.emitted k) →
        mp2.emitted.map headPart ≠ pre.map bare := by
      intro mp2 hr2 hask hE
      have hk : Keeps (env.upTo mp2.tick) b.args.number := by
        intro t k hk
        unfold Env.upTo at hk
        simp only [] at hk
        split at hk
        · rename_i htk
          exact asked_notBelow (post := [b] ++ post) (ht1 ▸ hnb) hE (hask t htk k hk) b (by simp)
        · simp at hk
      obtain ⟨pb, hpb, hex⟩ := C01_delivered hC (h.correct b hbt).1 (h.correct b hbt).2 hn hk
        (faithful_of_blocks hC h.correct h.inj (fun m hm => .inl (h.only m (by rw [hrec]; exact List.mem_append_left _ hm))) hbt) hall
        (run_upTo hr2 (Nat.le_refl _))
      have : headPart pb ∈ pre.map bare := by rw [← hE]; exact List.mem_map.mpr ⟨pb, hpb, rfl⟩
      obtain ⟨s, hs, e⟩ := List.mem_map.mp this
      refine hbn (List.mem_map.mpr ⟨s, hs, ?_⟩)
      rw [← hex.hash]
      exact congrArg PB.hash e
    rcases List.append_eq_append_iff.mp e with ⟨u, hu1, hu2⟩ | ⟨u, hu1, hu2⟩
    · -- the calls so far include those before the group
      subst hu1
      obtain ⟨mp1, hr1, hr2⟩ := run_append hr
      have ih1 := ih ([b] ++ post) (g ++ more) ht1 hrec1 l [] mp1 (by simp) hr1
        (fun l1 m l2 mp1 e => hq l1 m (l2 ++ u) mp1 (by rw [e]; simp))
      have hE : u ≠ [] → mp1.emitted.map headPart = pre.map bare := by
        intro hu
        rcases u with _ | ⟨m, u⟩
        · exact (hu rfl).elim
        · exact ih1.2 rfl (hq l m u mp1 rfl hr1)
      refine ⟨?_, ?_⟩
      · by_cases hu : u = []
        · subst hu
          cases hr2
          obtain ⟨k, hk, e⟩ := ih1.1
          exact ⟨k, by simp; omega, by rw [e, List.take_append_of_le_length hk]⟩
        · rcases step u rest mp1 mp hu2 hr1 hr2 (hE hu) with e | e
          · exact ⟨pre.length, by simp, by rw [e, List.take_append_of_le_length (Nat.le_refl _), List.take_length]⟩
          · exact ⟨(pre ++ [b]).length, Nat.le_refl _, by rw [e, List.take_length]⟩
      · rintro rfl hask
        rw [List.append_nil] at hu2
        subst hu2
        have hE1 : mp1.emitted.map headPart = pre.map bare := by
          by_cases hu : g = []
          · subst hu
            cases hr2
            exact ih1.2 rfl hask
          · exact hE hu
        exact (step g [] mp1 mp (by simp) hr1 hr2 hE1).resolve_left (done mp hr hask)
    · by_cases hu : u = []
      · -- exactly those
        subst hu
        simp only [List.append_nil, List.nil_append] at hu1 hu2
        subst hu1; subst hu2
        have ih1 := ih ([b] ++ post) (rest ++ more) ht1 hrec1 l [] mp (by simp) hr hq
        refine ⟨?_, ?_⟩
        · obtain ⟨k, hk, e⟩ := ih1.1
          exact ⟨k, by simp; omega, by rw [e, List.take_append_of_le_length hk]⟩
        · rintro rfl hask
          exact (step [] [] mp mp rfl hr rfl (ih1.2 rfl hask)).resolve_left (done mp (by simpa using hr) hask)
      · have ih1 := ih ([b] ++ post) (g ++ more) ht1 hrec1 ms u mp hu1 hr hq
        refine ⟨?_, ?_⟩
        · obtain ⟨k, hk, e⟩ := ih1.1
          exact ⟨k, by simp; omega, by rw [e, List.take_append_of_le_length hk]⟩
        · rintro rfl _
          exact (hu (List.append_eq_nil_iff.mp hu2.symm).1).elim

/-! ### The pipeline -/

/-- What is assumed of the order of a tree and of its messages: the blocks are completed in this order, each branches off at a recent
block (C37), and none is lower than a forgotten one. -/
structure Spec.Ordered (cfg : Config) (tree : List SentBlock) (received : List RMsg) : Prop where
  inOrder : BlockByBlock (2 * cfg.reorgThreshold) tree tree received
  tracked : AllTracked (2 * cfg.reorgThreshold) cfg.lastHash (tree.map bare)
  notBelow : NotBelow (2 * cfg.reorgThreshold) tree

theorem Spec.AllTracked.take {n : Int} {root : Hash} {bs : List PB} (h : AllTracked n root bs) (k : Nat) : AllTracked n root (bs.take k) := by
  intro l1 b l2 e
  refine h l1 b (l2 ++ bs.drop k) ?_
  rw [← List.cons_append, ← List.append_assoc, ← e, List.take_append_drop]

theorem Spec.Forgotten.append {n : Int} {bs : List PB} {k : Int} (h : Forgotten n bs k) (more : List PB) : Forgotten n (bs ++ more) k := by
  obtain ⟨p, rest, e, h⟩ := h
  exact ⟨p, rest ++ more, by rw [e]; simp, h⟩

theorem newOMP_threshold {omp0 : OMP} (ho : newOMP cfg = .ok omp0) : 0 < cfg.reorgThreshold := by
  unfold newOMP at ho
  split at ho
  · simp at ho
  · omega

variable {root : SentBlock}

/-- What holds when the requests acted on so far were for blocks forgotten. -/
theorem Spec.SentTree.endless (h : SentTree C cfg root tree received) (hC : C.Lawful) (ho : Spec.Ordered cfg tree received) {s0 s : Sys}
    (hst : Sys.start cfg (received.map Call.msg) = .ok s0) (hs : Sys.Steps C env o s0 s)
    (key : ∀ mp0 ms, newMP cfg = .ok mp0 → s.calls = ms.map Call.msg → AskedBefore C env (2 * cfg.reorgThreshold) mp0 ms) :
    (∃ k, k ≤ tree.length ∧ s.mp.emitted.map headPart = (tree.take k).map bare) ∧
      AllTracked (2 * cfg.reorgThreshold) cfg.lastHash s.mp.emitted ∧
      ∀ k, OOut.evictOlder k ∈ s.omp.log → Forgotten (2 * cfg.reorgThreshold) s.mp.emitted k := by
  obtain ⟨mp0, omp0, ms, ds, hn, hom, ⟨rest, h1, h2⟩, h3, h4, h5, h6⟩ := h.supplied.inside hC hst hs
  have hcalls : s.calls = ms.map Call.msg := by
    have := ((Piped.start hst).steps hs).consists.calls
    rw [h1, h2, List.map_append] at this
    exact (List.append_cancel_right this).symm
  have hN := newOMP_threshold hom
  obtain ⟨⟨k, hk, e⟩, _⟩ := h.supplied.emittedInOrder hC (N := 2 * cfg.reorgThreshold) (by omega) rfl hn ho.notBelow ho.inOrder [] []
    (by simp) (by simp) ms rest s.mp h1 h3 (key mp0 ms hn hcalls)
  have htr : AllTracked (2 * cfg.reorgThreshold) cfg.lastHash s.mp.emitted := by
    refine allTracked_headPart ?_
    rw [e, List.map_take]
    exact ho.tracked.take k
  refine ⟨⟨k, hk, e⟩, htr, ?_⟩
  intro x hx
  have hex : ∀ pb ∈ ds, ∃ s ∈ tree, Exact cfg.tracked s.schema s.args s.subs pb := fun pb hpb =>
    h.supplied.emitted hC hn (fun m hm => by rw [h1]; simp [hm]) h3 (by rw [h6]; simp [hpb])
  have := C37_asked (o := o) (W := treeWorld root tree) (bs := ds) h.rootHash h.rootWeight
    (fun b hb => (h.world (hex b hb)).1.1) (fun b hb => (h.world (hex b hb)).2.1) (fun b hb => (h.world (hex b hb)).2.2.1)
    (fun b hb => (h.world (hex b hb)).2.2.2.1) (fun l1 b l2 e => htr l1 b (l2 ++ (s.ch ++ blocksSent s.out)) (by rw [h6, e]; simp))
    hom h5 hx
  rw [h6]
  exact this.append _

/-- What holds in every state. -/
theorem Spec.SentTree.endlessInside (h : SentTree C cfg root tree received) (hC : C.Lawful) (ho : Spec.Ordered cfg tree received) {s0 s : Sys}
    (hst : Sys.start cfg (received.map Call.msg) = .ok s0) (hs : CausalSteps C env o s0 s) :
    ∀ mp0 ms, newMP cfg = .ok mp0 → s.calls = ms.map Call.msg → AskedBefore C env (2 * cfg.reorgThreshold) mp0 ms := by
  induction hs with
  | refl =>
    intro mp0 ms _ hc l1 m l2 mp1 e
    have : s0.calls = [] := by
      unfold Sys.start at hst
      obtain ⟨mp, _, hst⟩ := bind_ok.mp hst
      obtain ⟨omp, _, hst⟩ := bind_ok.mp hst
      cases hst; rfl
    rw [this] at hc
    have := (List.map_eq_nil_iff.mp hc.symm)
    rw [this] at e
    simp at e
  | step hs hstep hheard ih =>
    rename_i s1 s2
    cases hstep with
    | call ht hout hc =>
      rename_i c cs mp
      have hc1 := (h.endless hC ho hst hs.steps ih).2.2
      have hh := hheard (by simp)
      obtain ⟨mp0', omp0, ms1, ds, hn', hom, ⟨rest, h1, h2⟩, h3, h4, h5, h6⟩ := h.supplied.inside hC hst hs.steps
      have hcalls : s1.calls = ms1.map Call.msg := by
        have := ((Piped.start hst).steps hs.steps).consists.calls
        rw [h1, h2, List.map_append] at this
        exact (List.append_cancel_right this).symm
      intro mp0 ms hn hcs l1 m l2 mp1 e hr t htick
      rw [hn'] at hn
      cases hn
      have hcs : s1.calls ++ [c] = ms.map Call.msg := hcs
      rw [hcalls, e] at hcs
      rw [List.map_append, List.map_cons] at hcs
      rcases l2 with _ | ⟨y, l2⟩
      · rw [List.map_nil] at hcs
        have := call_msg_inj (List.append_inj_left' hcs rfl)
        subst this
        rw [h3] at hr
        cases hr
        intro k hk
        exact hc1 k (hh t htick k hk)
      · obtain ⟨l3, z, e3⟩ : ∃ l3 z, y :: l2 = l3 ++ [z] := ⟨(y :: l2).dropLast, (y :: l2).getLast (List.cons_ne_nil _ _), (List.dropLast_concat_getLast (List.cons_ne_nil _ _)).symm⟩
        rw [e3, List.map_append] at hcs
        have hcs : ms1.map Call.msg ++ [c] = (l1 ++ m :: l3).map Call.msg ++ [Call.msg z] := by rw [hcs]; simp
        have := call_msg_inj (List.append_inj_left' hcs rfl)
        exact ih mp0' ms1 hn' hcalls l1 m l3 mp1 this hr t htick
    | sendBlock h1 h2 => exact ih
    | sendReorg h1 h2 => exact ih
    | sendWaiter h1 => exact ih
    | block h1 h2 => exact ih
    | reorg h1 h2 => exact ih

/-- **C119**, while running: the blocks given to the ordering layer are the first blocks of the tree in their order, each once; the head of
the subscribers is the first-handled block of maximal weight among those handled; and whatever was asked to be dropped was forgotten. -/
theorem C119_head (h : SentTree C cfg root tree received) (hC : C.Lawful) (ho : Spec.Ordered cfg tree received) {s0 s : Sys}
    (hst : Sys.start cfg (received.map Call.msg) = .ok s0) (hs : CausalSteps C env o s0 s) :
    (∃ k, hashes s.mp.emitted = (tree.take k).map (·.args.hash)) ∧
    (blocksOf s.ops ≠ [] → FirstHeaviest (blocksOf s.ops) s.omp.lastHash) ∧
    ∀ k, OOut.evictOlder k ∈ s.omp.log → Forgotten (2 * cfg.reorgThreshold) s.mp.emitted k := by
  obtain ⟨⟨k, _, e⟩, htr, hask⟩ := h.endless hC ho hst hs.steps (h.endlessInside hC ho hst hs)
  refine ⟨⟨k, ?_⟩, C86_any_length h hC hst hs.steps htr, hask⟩
  rw [← hashes_headPart, e, hashes_bare]

/-- **C119**, at the end: when everything has been handled, every block of the tree has been given to the ordering layer exactly once and in
order, and the subscribers, having applied all updates, hold a chain of blocks exactly as produced that ends in a block of maximal weight of
the whole tree. -/
theorem C119_end (h : SentTree C cfg root tree received) (hC : C.Lawful) (ho : Spec.Ordered cfg tree received) {s0 s : Sys}
    (hst : Sys.start cfg (received.map Call.msg) = .ok s0) (hs : CausalSteps C env o s0 s) (hd : s.Drained) (hg : Heard env s) :
    hashes (blocksOf s.ops) = tree.map (·.args.hash) ∧
    ∃ base chain top, Replays cfg.lastHash s.omp.log base chain ∧ Linked base chain ∧ endOf base chain = top.args.hash ∧
      top ∈ tree ∧ (∀ sb ∈ tree, sb.args.weight ≤ top.args.weight) ∧
      ∀ b ∈ chain, ∃ sb ∈ tree, Exact cfg.tracked sb.schema sb.args sb.subs b := by
  have key := h.endlessInside hC ho hst hs
  obtain ⟨_, htr, hask⟩ := h.endless hC ho hst hs.steps key
  obtain ⟨mp0, omp0, ms, ds, hn, hom, ⟨rest, h1, h2⟩, h3, h4, h5, h6⟩ := h.supplied.inside hC hst hs.steps
  have hcalls : s.calls = ms.map Call.msg := by
    have := ((Piped.start hst).steps hs.steps).consists.calls
    rw [h1, h2, List.map_append] at this
    exact (List.append_cancel_right this).symm
  rw [hd.1] at h2
  have hrest : rest = [] := List.map_eq_nil_iff.mp h2.symm
  subst hrest
  have hN := newOMP_threshold hom
  have hall := (h.supplied.emittedInOrder hC (N := 2 * cfg.reorgThreshold) (by omega) rfl hn ho.notBelow ho.inOrder [] []
    (by simp) (by simp) ms [] s.mp h1 h3 (key mp0 ms hn hcalls)).2 rfl (fun t ht k hk => hask k (hg t ht k hk))
  rw [List.append_nil] at h1
  subst h1
  rw [hd.2.1, hd.2.2.1] at h6
  have h6 : s.mp.emitted = ds := by simpa [blocksSent] using h6
  have hds : blocksOf s.ops = ds := by rw [h4, blocksOf_map]
  have hex : ∀ pb ∈ ds, ∃ s ∈ tree, Exact cfg.tracked s.schema s.args s.subs pb := fun pb hpb =>
    h.supplied.emitted hC hn (fun m hm => hm) h3 (by rw [h6]; exact hpb)
  rw [h6] at hall
  have hhash : hashes ds = tree.map (·.args.hash) := by rw [← hashes_headPart, hall, hashes_bare]
  have hall' : ∀ sb ∈ tree, ∃ pb ∈ ds, (pb.weight : Int) = sb.args.weight := by
    intro sb hsb
    have : bare sb ∈ ds.map headPart := by rw [hall]; exact List.mem_map.mpr ⟨sb, hsb, rfl⟩
    obtain ⟨pb, hpb, e⟩ := List.mem_map.mp this
    have e1 : pb.weight = sb.args.weight.toNat := congrArg PB.weight e
    have := (h.correct sb hsb).2.weight
    exact ⟨pb, hpb, by omega⟩
  have hne : blocksOf s.ops ≠ [] := by
    obtain ⟨pb, hpb, _⟩ := hall' root h.mem
    rw [hds]
    intro e
    rw [e] at hpb
    simp at hpb
  obtain ⟨l1, b, l2, e, e1, e2, _⟩ := C86_any_length h hC hst hs.steps htr hne
  rw [hds] at e e2
  obtain ⟨top, htop, hx⟩ := hex b (by rw [e]; simp)
  obtain ⟨base, chain, g1, g2, g3⟩ := C28_continuous (o := o) (W := treeWorld root tree) (ops := ds.map OOp.block) (s0 := omp0) h.rootHash
    (by rw [blocksOf_map]; exact fun b hb => (h.world (hex b hb)).1) hom h5
  refine ⟨by rw [hds, hhash], base, chain, top, g1, g2, by rw [g3, ← e1, hx.hash], htop, ?_, ?_⟩
  · intro sb hsb
    obtain ⟨pb, hpb, he⟩ := hall' sb hsb
    have := e2 pb hpb
    have h9 := hx.weight
    omega
  · intro x hx
    obtain ⟨a, r, k1, k2⟩ := replays_sent g1 x hx
    exact hex x (by rw [← h6]; exact C43_updates hst hs.steps k1 (List.mem_append_left _ k2))

/-- In a state where the requests acted on were for blocks forgotten, neither goroutine is about to fault. -/
theorem Spec.SentTree.endlessCalm (h : SentTree C cfg root tree received) (hC : C.Lawful) (ho : Spec.Ordered cfg tree received) {s0 s : Sys}
    (hst : Sys.start cfg (received.map Call.msg) = .ok s0) (hs : Sys.Steps C env o s0 s)
    (key : ∀ mp0 ms, newMP cfg = .ok mp0 → s.calls = ms.map Call.msg → AskedBefore C env (2 * cfg.reorgThreshold) mp0 ms) :
    ¬ Faulty C env o s := by
  obtain ⟨_, htr, _⟩ := h.endless hC ho hst hs key
  refine h.supplied.calmAt hC hst hs ?_
  intro omp0 ds more hom hex e
  obtain ⟨s', hr, _⟩ := follow_all (o := o) (W := treeWorld root tree) (bs := ds) h.rootHash h.rootWeight
    (fun b hb => (h.world (hex b hb)).1.1) (fun b hb => (h.world (hex b hb)).2.1) (fun b hb => (h.world (hex b hb)).2.2.1)
    (fun b hb => (h.world (hex b hb)).2.2.2.1) (fun l1 b l2 e1 => htr l1 b (l2 ++ more) (by rw [e, e1]; simp)) hom
  exact ⟨s', hr⟩

theorem call_tick {mp mp' : MP} {c : Call} (h : mp.call C env c = .ok mp') : mp.tick ≤ mp'.tick := by
  cases c with
  | msg m =>
    simp only [MP.call] at h
    split at h
    · cases h
    · rename_i e
      cases h
      exact process_notBack C env _ _ _ e
  | block pb =>
    cases h
    exact Nat.le_of_eq (by unfold MP.processCompleteBatch; rfl)

theorem call_upTo {mp mp' : MP} {c : Call} {T : Nat} (h : mp.call C env c = .ok mp') (hT : mp'.tick ≤ T) : mp.call C (env.upTo T) c = .ok mp' := by
  cases c with
  | msg m =>
    simp only [MP.call] at h ⊢
    split at h
    · cases h
    · rename_i e
      cases h
      rw [process_agreeTo C env T _ _ _ e hT]
  | block pb => exact h

theorem steps_upTo {s0 s : Sys} {T : Nat} (h : Sys.Steps C env o s0 s) (hT : s.mp.tick ≤ T) : Sys.Steps C (env.upTo T) o s0 s := by
  induction h with
  | refl => exact .refl
  | step hs hstep ih =>
    cases hstep with
    | call h1 h2 h3 => exact .step (ih (Nat.le_trans (call_tick h3) hT)) (.call h1 h2 (call_upTo h3 hT))
    | sendBlock h1 h2 => exact .step (ih hT) (.sendBlock h1 h2)
    | sendReorg h1 h2 => exact .step (ih hT) (.sendReorg h1 h2)
    | sendWaiter h1 => exact .step (ih hT) (.sendWaiter h1)
    | block h1 h2 => exact .step (ih hT) (.block h1 h2)
    | reorg h1 h2 => exact .step (ih hT) (.reorg h1 h2)

theorem steps_calls {s s' : Sys} (h : Sys.Steps C env o s s') : ∃ cs, s'.calls = s.calls ++ cs := by
  induction h with
  | refl => exact ⟨[], by simp⟩
  | step _ hstep ih =>
    obtain ⟨cs, e⟩ := ih
    cases hstep with
    | @call c _ _ _ _ _ => exact ⟨cs ++ [c], by simp only [e, List.append_assoc]⟩
    | sendBlock _ _ => exact ⟨cs, e⟩
    | sendReorg _ _ => exact ⟨cs, e⟩
    | sendWaiter _ => exact ⟨cs, e⟩
    | block _ _ => exact ⟨cs, e⟩
    | reorg _ _ => exact ⟨cs, e⟩

theorem steps_trans {a b c : Sys} (h1 : Sys.Steps C env o a b) (h2 : Sys.Steps C env o b c) : Sys.Steps C env o a c := by
  induction h2 with
  | refl => exact h1
  | step _ h ih => exact .step ih h

/-- **C119**, no faults: no goroutine is ever about to fault, and if no further requests are read the execution can be completed. -/
theorem C119_no_fault (h : SentTree C cfg root tree received) (hC : C.Lawful) (ho : Spec.Ordered cfg tree received) {s0 s : Sys}
    (hst : Sys.start cfg (received.map Call.msg) = .ok s0) (hs : CausalSteps C env o s0 s) :
    ¬ Faulty C env o s ∧ (Heard env s → ∃ s', Sys.Steps C (env.upTo s.mp.tick) o s s' ∧ s'.Drained) := by
  have key := h.endlessInside hC ho hst hs
  refine ⟨h.endlessCalm hC ho hst hs.steps key, fun hg => ?_⟩
  obtain ⟨_, _, hask⟩ := h.endless hC ho hst hs.steps key
  have hs1 := steps_upTo hs.steps (Nat.le_refl _)
  obtain ⟨s', h1, h2⟩ := s.drains (C := C) (env := env.upTo s.mp.tick) (o := o) ((Piped.start (C := C) (env := env) (o := o) hst).steps hs.steps).room
  refine ⟨s', h1, h2.resolve_right (h.endlessCalm hC ho hst (steps_trans hs1 h1) ?_)⟩
  obtain ⟨mp0', omp0, ms, ds, hn', hom, ⟨rest, e1, e2⟩, h3, h4, h5, h6⟩ := h.supplied.inside hC hst hs.steps
  have hcalls : s.calls = ms.map Call.msg := by
    have := ((Piped.start hst).steps hs.steps).consists.calls
    rw [e1, e2, List.map_append] at this
    exact (List.append_cancel_right this).symm
  obtain ⟨cs, hcs⟩ := steps_calls h1
  intro mp0 ms' hn hms' l1 m l2 mp1 e hr t ht k hk
  rw [hn'] at hn
  cases hn
  unfold Env.upTo at hk
  simp only [] at hk
  split at hk
  · rename_i hlt
    rw [hcs, hcalls] at hms'
    obtain ⟨a, b, ea, eb, _⟩ := List.map_eq_append_iff.mp hms'.symm
    have ea' := call_msg_inj eb
    rw [ea'] at ea
    rw [ea] at e
    have whole : ∀ u, l1 = ms ++ u → Forgotten (2 * cfg.reorgThreshold) mp1.emitted k := by
      intro u hu
      rw [hu] at hr
      obtain ⟨es, hes⟩ := emitted_grows hn' (run_upTo h3 (Nat.le_refl _)) hr
      rw [hes]
      exact (hask k (hg t hlt k hk)).append es
    rcases List.append_eq_append_iff.mp e with ⟨u, hu1, hu2⟩ | ⟨u, hu1, hu2⟩
    · exact whole u hu1
    · rcases u with _ | ⟨x, u⟩
      · exact whole [] (by rw [hu1]; simp)
      · simp only [List.cons_append, List.cons.injEq] at hu2
        obtain ⟨rfl, _⟩ := hu2
        obtain ⟨mq, hq1, hq2⟩ := run_append (a := l1) (b := m :: u) (by rw [← hu1]; exact h3)
        have hq3 := run_upTo hq1 (run_tick hq2)
        rw [hr] at hq3
        cases hq3
        exact key mp0' ms hn' hcalls l1 m u mp1 hu1 hq1 t ht k hk
  · simp at hk

end

/-! ### Trees of shallow forks -/

/-- Numbers never fall back by more than `d` below the highest so far; at most `w` blocks share a number; and the branch of every block leaves
that of the heaviest block so far at a block at most `D` below the highest so far. -/
structure Spec.Shallow (root : Hash) (d D w : Nat) (bs : List PB) : Prop where
  first : ∀ b l, bs = b :: l → b.hash = root
  distinct : (hashes bs).Nodup
  fall : ∀ (p : List PB) (y : PB) (r : List PB), bs = p ++ y :: r → ∀ x ∈ p, x.number ≤ y.number + (d : Int)
  width : ∀ k : Int, (bs.filter (fun b => b.number = k)).length ≤ w
  fork : ∀ (p : List PB) (y : PB) (r : List PB), bs = p ++ y :: r → p ≠ [] → ∃ a ∈ p, (∀ x ∈ p, x.number ≤ a.number + (D : Int)) ∧ Above p a.hash y.parentHash ∧
    ∀ h, FirstHeaviest p h → Above p a.hash h

theorem count_numbers {w : Nat} {l : List PB} (hw : ∀ k : Int, (l.filter (fun b => b.number = k)).length ≤ w) (m : Int) (n : Nat) :
    (l.filter (fun b => decide (m ≤ b.number) && decide (b.number < m + n))).length ≤ w * n := by
  induction n with
  | zero =>
    have : l.filter (fun b => decide (m ≤ b.number) && decide (b.number < m + (0 : Nat))) = [] := by
      rw [List.filter_eq_nil_iff]
      intro b _ hb
      simp only [Bool.and_eq_true, decide_eq_true_eq] at hb
      omega
    rw [this]; simp
  | succ n ih =>
    have key : ∀ l : List PB, (l.filter (fun b => decide (m ≤ b.number) && decide (b.number < m + (n + 1 : Nat)))).length =
        (l.filter (fun b => decide (m ≤ b.number) && decide (b.number < m + n))).length + (l.filter (fun b => b.number = m + n)).length := by
      intro l
      induction l with
      | nil => rfl
      | cons b l ih =>
        simp only [List.filter_cons]
        by_cases h1 : b.number = m + n
        · have h2 : (decide (m ≤ b.number) && decide (b.number < m + (n + 1 : Nat))) = true := by
            simp only [Bool.and_eq_true, decide_eq_true_eq]; omega
          have h3 : (decide (m ≤ b.number) && decide (b.number < m + n)) = false := by
            rw [Bool.eq_false_iff]; simp only [ne_eq, Bool.and_eq_true, decide_eq_true_eq]; omega
          rw [h2, h3]
          simp only [h1, decide_true, if_true, Bool.false_eq_true, if_false, List.length_cons]
          omega
        · have h2 : (decide (m ≤ b.number) && decide (b.number < m + (n + 1 : Nat))) = (decide (m ≤ b.number) && decide (b.number < m + n)) := by
            rw [Bool.eq_iff_iff]; simp only [Bool.and_eq_true, decide_eq_true_eq]; omega
          rw [h2]
          simp only [h1, decide_false, Bool.false_eq_true, if_false]
          split
          · simp only [List.length_cons]; omega
          · exact ih
    rw [key, Nat.mul_succ]
    have := hw (m + n)
    omega

/-- What is at most `e` below the highest block so far is recent, if `w * (d + e + 1)` blocks fit the window. -/
theorem Spec.Shallow.recent {root : Hash} {d D w : Nat} {bs : List PB} (h : Shallow root d D w bs) {n : Int} {e : Nat}
    (hn : ((w * (d + e + 1) : Nat) : Int) ≤ n) {p r : List PB} (hp : bs = p ++ r) {a : PB} (ha : a ∈ p) (he : ∀ x ∈ p, x.number ≤ a.number + e) :
    Recent n p a.hash := by
  obtain ⟨l1, l2, rfl⟩ := List.append_of_mem ha
  refine ⟨a.number - d, l1, a, l2, rfl, rfl, ?_, ?_, hashes ((l1 ++ a :: l2).filter (fun b => a.number - d ≤ b.number)), ?_, ?_⟩
  · have hd := h.distinct
    rw [hp, hashes_append, hashes_append, List.append_assoc, List.nodup_append] at hd
    intro hm
    exact hd.2.2 _ hm _ (by simp [hashes]) rfl
  · intro y hy
    rcases List.mem_cons.mp hy with rfl | hy
    · omega
    · obtain ⟨k1, k2, rfl⟩ := List.append_of_mem hy
      have := h.fall (l1 ++ a :: k1) y (k2 ++ r) (by rw [hp]; simp) a (by simp)
      omega
  · refine Int.le_trans ?_ hn
    have hw : ∀ k : Int, ((l1 ++ a :: l2).filter (fun b => b.number = k)).length ≤ w := by
      intro k
      have := h.width k
      rw [hp, List.filter_append, List.length_append] at this
      omega
    have hc := count_numbers hw (a.number - d) (d + e + 1)
    have : (l1 ++ a :: l2).filter (fun b => decide (a.number - d ≤ b.number)) =
        (l1 ++ a :: l2).filter (fun b => decide (a.number - d ≤ b.number) && decide (b.number < a.number - d + (d + e + 1 : Nat))) := by
      refine List.filter_congr fun x hx => ?_
      have := he x hx
      rw [Bool.eq_iff_iff]
      simp only [Bool.and_eq_true, decide_eq_true_eq]
      omega
    rw [this]
    unfold hashes
    rw [List.length_map]
    exact Int.ofNat_le.mpr hc
  · intro y hy hm
    exact mem_hashes (List.mem_filter.mpr ⟨hy, by simpa using hm⟩)

/-- **C119**, a simple case of the conditions on the order: forks are shallow compared to the window. -/
theorem C119_shallow {cfg : Config} {tree : List SentBlock} {d D w : Nat} (h : Shallow cfg.lastHash d D w (tree.map bare))
    (h1 : ((w * (d + D + 1) : Nat) : Int) ≤ 2 * cfg.reorgThreshold) (h2 : ((w * (d + d + 1) : Nat) : Int) ≤ 2 * cfg.reorgThreshold) :
    AllTracked (2 * cfg.reorgThreshold) cfg.lastHash (tree.map bare) ∧ NotBelow (2 * cfg.reorgThreshold) tree := by
  constructor
  · intro p y r e
    by_cases hp : p = []
    · subst hp
      exact .inl ⟨rfl, h.first y r e⟩
    · obtain ⟨a, ha, h3, h4, h5⟩ := h.fork p y r e hp
      refine .inr (.inr ⟨?_, a.hash, h.recent h1 e ha h3, h4, h5⟩)
      have hd := h.distinct
      rw [e, hashes_append, List.nodup_append] at hd
      intro hm
      exact hd.2.2 _ hm _ (by simp [hashes]) rfl
  · intro p rest e x hx hnr y hy
    refine Classical.byContradiction fun hlt => hnr ?_
    have e' : tree.map bare = p.map bare ++ rest.map bare := by rw [e, List.map_append]
    refine h.recent (a := bare x) h2 e' (List.mem_map.mpr ⟨x, hx, rfl⟩) ?_
    intro z hz
    obtain ⟨k1, k2, ek⟩ := List.append_of_mem (List.mem_map.mpr ⟨y, hy, rfl⟩ : bare y ∈ rest.map bare)
    have := h.fall (p.map bare ++ k1) (bare y) k2 (by rw [e', ek]; simp) z (by simp only [List.mem_append]; exact .inl hz)
    have e1 : (bare y).number = y.args.number := rfl
    have e2 : (bare x).number = x.args.number := rfl
    omega

/-! ### An example: six blocks, a fork, and a window of four -/

theorem Spec.BlockByBlock.only {n : Int} {tree order : List SentBlock} {l : List RMsg} (h : BlockByBlock n tree order l) :
    (∀ a ∈ order, a ∈ tree) → ∀ m ∈ l, ∃ s ∈ tree, Copy s.msgs m := by
  induction h with
  | nil => intro _ m hm; simp at hm
  | next _ hg _ ih =>
    intro ho m hm
    rcases List.mem_append.mp hm with hm | hm
    · exact ih (fun a ha => ho a (by simp [ha])) m hm
    · rcases hg m hm with hc | ⟨p, a, q, rfl, _, hc⟩ | ⟨_, c, hc, _, hm⟩
      · exact ⟨_, ho _ (by simp), hc⟩
      · exact ⟨a, ho a (by simp), hc⟩
      · exact ⟨c, hc, hm⟩

theorem inOrder_recv {n : Int} {tree order : List SentBlock} {l extra : List RMsg} (h : BlockByBlock n tree order l) (b : SentBlock)
    (he : ∀ m ∈ extra, (∃ p a q, order = p ++ a :: q ∧ (q.length : Int) + 1 < n ∧ Copy a.msgs m) ∨
      (m.key.head? ≠ some BatchType ∧ ∃ c ∈ tree, c ∉ order ∧ Copy c.msgs m)) :
    BlockByBlock n tree (order ++ [b]) (l ++ (extra ++ recv b.msgs)) := by
  refine h.next ?_ ?_
  · intro m hm
    rcases List.mem_append.mp hm with hm | hm
    · exact .inr (he m hm)
    · exact .inl (recv_copy (fun _ h => h) hm)
  · intro x hx
    obtain ⟨y, hy, hxy⟩ := recv_all b.msgs x hx
    exact ⟨y, by simp [hy], hxy⟩

theorem width_of {w : Nat} {bs : List PB} (h : ∀ b ∈ bs, (bs.filter (fun x => x.number = b.number)).length ≤ w) :
    ∀ k : Int, (bs.filter (fun b => b.number = k)).length ≤ w := by
  intro k
  cases hf : bs.filter (fun b => b.number = k) with
  | nil => simp
  | cons b l =>
    have hb : b ∈ bs.filter (fun b => b.number = k) := by rw [hf]; simp
    obtain ⟨hb, hk⟩ := List.mem_filter.mp hb
    have := h b hb
    simp only [decide_eq_true_eq] at hk
    rw [hk, hf] at this
    exact this

/-- Test for the fork point of a block. -/
def forkTest (D : Nat) (fork : PB → Hash) (p : List PB) (y : PB) : Bool :=
  p.isEmpty || p.any (fun a => a.hash == fork y && p.all (fun x => decide (x.number ≤ a.number + (D : Int))) && aboveTest p a.hash 20 y.parentHash &&
    (p.filter (fun x => p.all (fun z => z.weight ≤ x.weight))).all (fun x => aboveTest p a.hash 20 x.hash))

theorem shallow_of {root : Hash} {d D w : Nat} {bs : List PB} (fork : PB → Hash) (h1 : ∀ b l, bs = b :: l → b.hash = root) (h2 : (hashes bs).Nodup)
    (h3 : ∀ s ∈ splits bs, ∀ x ∈ s.1, x.number ≤ s.2.1.number + (d : Int))
    (h4 : ∀ b ∈ bs, (bs.filter (fun x => x.number = b.number)).length ≤ w) (h5 : ∀ s ∈ splits bs, forkTest D fork s.1 s.2.1 = true) :
    Shallow root d D w bs := by
  refine ⟨h1, h2, ?_, width_of h4, ?_⟩
  · intro p y r e x hx
    subst e
    exact h3 _ mem_splits x hx
  · intro p y r e hp
    subst e
    have ht := h5 _ mem_splits
    simp only [forkTest, Bool.or_eq_true, List.isEmpty_iff, List.any_eq_true, Bool.and_eq_true, List.all_eq_true, decide_eq_true_eq] at ht
    obtain ⟨a, ha, ⟨⟨_, g1⟩, g2⟩, g3⟩ := ht.resolve_left hp
    refine ⟨a, ha, g1, aboveTest_sound g2, ?_⟩
    rintro h ⟨l1, x, l2, e, ex, hx, _⟩
    rw [← ex]
    exact aboveTest_sound (g3 x (List.mem_filter.mpr ⟨by rw [e]; simp, by simpa using hx⟩))

/-- Blocks like `exBlock`. -/
def exLike (number : Int) (hash parent : Nat) (weight : Int) : BlockArgs :=
  { exBlock with number := number, hash := exHash hash, parentHash := exHash parent, weight := weight }

/-- `exBlock`; two blocks on it, the second heavier; and three more on that. -/
def exSix : List BlockArgs :=
  [exLike 5 1 2 300, exLike 6 3 1 310, exLike 6 5 1 320, exLike 7 6 5 330, exLike 8 7 6 340, exLike 9 8 7 350]

theorem exSix_sent : ∀ a ∈ exSix, ∃ ms, SentBlock.Correct Avro.codec ⟨exProducer.schema, a, exSubs, ms⟩ := by
  intro a ha
  have h1 : ∀ a ∈ exSix, (match (addBlock' Avro.codec MapOrder.rev exProducer a).2 with | .ok _ => true | .error _ => false) = true := by
    decide +kernel
  have h2 : ∃ p' tm, addBlock' Avro.codec MapOrder.rev exProducer a = (p', .ok tm) := by
    have := h1 a ha
    generalize addBlock' Avro.codec MapOrder.rev exProducer a = r at this
    obtain ⟨p', r⟩ := r
    cases r with
    | error e => simp at this
    | ok tm => exact ⟨p', tm, rfl⟩
  obtain ⟨p', tm, h2⟩ := h2
  obtain ⟨ms, hm⟩ := produced_exists h2 exSubs
  refine ⟨ms, hm, ?_⟩
  show WellFormed exProducer.schema a exSubs
  clear hm h2
  simp only [exSix, List.mem_cons, List.not_mem_nil, or_false] at ha
  rcases ha with rfl | rfl | rfl | rfl | rfl | rfl <;>
    exact { exBlock_wf with weight := by decide, number := by decide, lenWeight := by decide +kernel }

/-- C119: six blocks with a window of four, some messages late, some early; the subscribers end at the last block. -/
example : ∃ root tree received, tree.length = 6 ∧ exForkCfg.reorgThreshold = 2 ∧ SentTree Avro.codec exForkCfg root tree received ∧
    Spec.Ordered exForkCfg tree received ∧
    ∃ s0 s base chain, Sys.start exForkCfg (received.map Call.msg) = .ok s0 ∧ CausalSteps Avro.codec exEnv .plain s0 s ∧ s.Drained ∧ Heard exEnv s ∧
      Replays exForkCfg.lastHash s.omp.log base chain ∧ endOf base chain = exHash 8 := by
  obtain ⟨m1, h1⟩ := exSix_sent (exLike 5 1 2 300) (by simp [exSix])
  obtain ⟨m2, h2⟩ := exSix_sent (exLike 6 3 1 310) (by simp [exSix])
  obtain ⟨m3, h3⟩ := exSix_sent (exLike 6 5 1 320) (by simp [exSix])
  obtain ⟨m4, h4⟩ := exSix_sent (exLike 7 6 5 330) (by simp [exSix])
  obtain ⟨m5, h5⟩ := exSix_sent (exLike 8 7 6 340) (by simp [exSix])
  obtain ⟨m6, h6⟩ := exSix_sent (exLike 9 8 7 350) (by simp [exSix])
  generalize e1 : (⟨exProducer.schema, exLike 5 1 2 300, exSubs, m1⟩ : SentBlock) = b1 at h1
  generalize e2 : (⟨exProducer.schema, exLike 6 3 1 310, exSubs, m2⟩ : SentBlock) = b2 at h2
  generalize e3 : (⟨exProducer.schema, exLike 6 5 1 320, exSubs, m3⟩ : SentBlock) = b3 at h3
  generalize e4 : (⟨exProducer.schema, exLike 7 6 5 330, exSubs, m4⟩ : SentBlock) = b4 at h4
  generalize e5 : (⟨exProducer.schema, exLike 8 7 6 340, exSubs, m5⟩ : SentBlock) = b5 at h5
  generalize e6 : (⟨exProducer.schema, exLike 9 8 7 350, exSubs, m6⟩ : SentBlock) = b6 at h6
  have a1 : b1.args = exLike 5 1 2 300 := by rw [← e1]
  have a2 : b2.args = exLike 6 3 1 310 := by rw [← e2]
  have a3 : b3.args = exLike 6 5 1 320 := by rw [← e3]
  have a4 : b4.args = exLike 7 6 5 330 := by rw [← e4]
  have a5 : b5.args = exLike 8 7 6 340 := by rw [← e5]
  have a6 : b6.args = exLike 9 8 7 350 := by rw [← e6]
  clear e1 e2 e3 e4 e5 e6
  have I1 := inOrder_recv (n := 2 * exForkCfg.reorgThreshold) (tree := [b1, b2, b3, b4, b5, b6]) .nil b1 (extra := []) (by simp)
  have I2 := inOrder_recv I1 b2 (extra := recv b1.msgs ++ (recv b3.msgs).filter (fun m => m.key.head? ≠ some BatchType)) (by
    intro m hm
    rcases List.mem_append.mp hm with hm | hm
    · exact .inl ⟨[], b1, [], rfl, by decide, recv_copy (fun _ h => h) hm⟩
    · obtain ⟨hm, ht⟩ := List.mem_filter.mp hm
      refine .inr ⟨by simpa using ht, b3, by simp, ?_, recv_copy (fun _ h => h) hm⟩
      intro hc
      simp only [List.nil_append, List.mem_singleton] at hc
      have := congrArg (fun b => b.args.hash) hc
      rw [a1, a3] at this
      revert this
      decide)
  have I3 := inOrder_recv I2 b3 (extra := []) (by simp)
  have I4 := inOrder_recv I3 b4 (extra := recv b2.msgs) (fun m hm =>
    .inl ⟨[b1], b2, [b3], rfl, show (1 : Int) + 1 < 2 * 2 by decide, recv_copy (fun _ h => h) hm⟩)
  have I5 := inOrder_recv I4 b5 (extra := []) (by simp)
  have I6 := inOrder_recv I5 b6 (extra := []) (by simp)
  clear I1 I2 I3 I4 I5
  simp only [List.nil_append, List.cons_append] at I6
  obtain ⟨received, I6⟩ : ∃ received, BlockByBlock (2 * exForkCfg.reorgThreshold) [b1, b2, b3, b4, b5, b6] [b1, b2, b3, b4, b5, b6] received := ⟨_, I6⟩
  have hbare : [b1, b2, b3, b4, b5, b6].map bare = exSix.map (fun a => bare ⟨[], a, exSubs, []⟩) := by
    simp only [List.map_cons, List.map_nil, exSix, bare, a1, a2, a3, a4, a5, a6]
  have hS : Shallow exForkCfg.lastHash 0 1 2 ([b1, b2, b3, b4, b5, b6].map bare) := by
    rw [hbare]
    refine shallow_of (fun b => if b.hash = exHash 5 then exHash 1 else b.parentHash) ?_ (by decide +kernel) (by decide +kernel)
      (by decide +kernel) (by decide +kernel)
    intro b l e
    simp only [exSix, List.map_cons, List.cons.injEq] at e
    rw [← e.1]
    rfl
  obtain ⟨g1, g2⟩ := C119_shallow hS (by decide) (by decide)
  have hO : Spec.Ordered exForkCfg [b1, b2, b3, b4, b5, b6] received := ⟨I6, g1, g2⟩
  have hmem : ∀ s, s ∈ [b1, b2, b3, b4, b5, b6] ↔ s = b1 ∨ s = b2 ∨ s = b3 ∨ s = b4 ∨ s = b5 ∨ s = b6 := by intro s; simp
  have hT : SentTree Avro.codec exForkCfg b1 [b1, b2, b3, b4, b5, b6] received := by
    refine ⟨⟨by simp, by rw [a1]; rfl, by rw [a1]; rfl, by rw [a1]; decide, ?_, ?_, ?_, ?_⟩, ?_, I6.only (fun _ h => h)⟩
    · simp only [List.map_cons, List.map_nil, a1, a2, a3, a4, a5, a6]
      decide
    · intro s hs
      rcases (hmem s).mp hs with rfl | rfl | rfl | rfl | rfl | rfl
      · exact .inl rfl
      · exact .inr ⟨b1, by simp, by rw [a1, a2]; rfl, by rw [a1, a2]; rfl, by rw [a1, a2]; decide⟩
      · exact .inr ⟨b1, by simp, by rw [a1, a3]; rfl, by rw [a1, a3]; rfl, by rw [a1, a3]; decide⟩
      · exact .inr ⟨b3, by simp, by rw [a3, a4]; rfl, by rw [a3, a4]; rfl, by rw [a3, a4]; decide⟩
      · exact .inr ⟨b4, by simp, by rw [a4, a5]; rfl, by rw [a4, a5]; rfl, by rw [a4, a5]; decide⟩
      · exact .inr ⟨b5, by simp, by rw [a5, a6]; rfl, by rw [a5, a6]; rfl, by rw [a5, a6]; decide⟩
    · simp only [List.map_cons, List.map_nil, a1, a2, a3, a4, a5, a6]
      decide
    · intro s _ x hx
      simp [exForkCfg, exCfg] at hx
    · intro s hs
      rcases (hmem s).mp hs with rfl | rfl | rfl | rfl | rfl | rfl <;> assumption
  obtain ⟨s0, hst⟩ : ∃ s0, Sys.start exForkCfg (received.map Call.msg) = .ok s0 := ⟨_, rfl⟩
  obtain ⟨s, hs, hd⟩ := (C119_no_fault (env := exEnv) (o := .plain) hT Avro.codec_lawful hO hst .refl).2 (fun t _ n hn => by simp [exEnv] at hn)
  have hsame : exEnv.upTo s0.mp.tick = exEnv := by
    unfold Env.upTo
    simp [exEnv]
  rw [hsame] at hs
  have hcs := causal_of_none (fun _ => rfl) hs
  have hh : Heard exEnv s := fun t _ n hn => by simp [exEnv] at hn
  obtain ⟨_, base, chain, top, k1, k2, k3, k4, k5, k6⟩ := C119_end hT Avro.codec_lawful hO hst hcs hd hh
  refine ⟨b1, _, received, rfl, rfl, hT, hO, s0, s, base, chain, hst, hcs, hd, hh, k1, ?_⟩
  rw [k3]
  have hw := k5 b6 (by simp)
  rcases (hmem top).mp k4 with rfl | rfl | rfl | rfl | rfl | rfl
  · rw [a1, a6] at hw; exact absurd hw (by decide)
  · rw [a2, a6] at hw; exact absurd hw (by decide)
  · rw [a3, a6] at hw; exact absurd hw (by decide)
  · rw [a4, a6] at hw; exact absurd hw (by decide)
  · rw [a5, a6] at hw; exact absurd hw (by decide)
  · rw [a6]; rfl

end Verif
