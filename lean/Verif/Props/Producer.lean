import Verif.Proofs.Send
import Verif.Proofs.Avro
/-!
# C17 – C24: the producer
-/
namespace Verif
open Spec

namespace Spec
/-- `m` is a message for a key that is matched to prefix `pre`. -/
def MsgFor (C : Codec) (schema : List RegexpPair) (hash : Hash) (pre : GoStr) (m : Msg) : Prop :=
  ∃ k topic, Routes schema k pre topic ∧ (m.key = keyOf C (.update hash k) ∨ m.key = keyOf C (.delete hash k))

/-- The message of an update resp. delete. -/
def updMsg (C : Codec) (hash : Hash) (e : GoStr × Bytes) : Msg := ⟨keyOf C (.update hash e.1), e.2⟩
def delMsg (C : Codec) (hash : Hash) (e : GoStr × Unit) : Msg := ⟨keyOf C (.delete hash e.1), []⟩
def headerMsg (C : Codec) (hash : Hash) (b : Batch) : Msg := ⟨keyOf C (.batch hash), C.encBatch b⟩
end Spec

/-! Example data: a schema with one entry, a literal prefix "state/". -/
section ExampleData
/-- A literal prefix as compiled regular expression. -/
def litRegexp (pre : GoStr) : GoStr → GoStr := fun k => if pre.isPrefixOf k then pre else []
def exProducer : Producer := ⟨[⟨litRegexp (str "state/"), str "s"⟩], str "d", GMap.empty⟩
def exHash (n : Nat) : Hash := ⟨UInt8.ofNat n :: List.replicate 31 7, by simp⟩
def exBlock : BlockArgs where
  number := 5
  hash := exHash 1
  parentHash := exHash 2
  weight := 300
  updates := ((GMap.empty.insert (str "state/a") [1]).insert (str "state/b") [2]).insert (str "head") [3]
  deletes := (GMap.empty.insert (str "state/c") ()).insert (str "old") ()
  batches := GMap.empty.insert (str "state/sub") (exHash 9)
theorem exBlock_ok : ∃ p' tm, addBlock' Avro.codec MapOrder.rev exProducer exBlock = (p', .ok tm) := by
  have : (match (addBlock' Avro.codec MapOrder.rev exProducer exBlock).2 with | .ok _ => true | .error _ => false) = true := by
    decide +kernel
  generalize hr : addBlock' Avro.codec MapOrder.rev exProducer exBlock = r at this
  obtain ⟨p', r⟩ := r
  cases r with
  | error e => simp at this
  | ok tm => exact ⟨p', tm, rfl⟩
end ExampleData

theorem routedMsgs_eq {α : Type} (schema : List RegexpPair) (mk : GoStr → α → Msg) (l : List (GoStr × α)) :
    routedMsgs schema mk l = (l.filter (fun e => ¬ Unrouted schema e.1)).map (fun e => mk e.1 e.2) := by
  induction l with
  | nil => rfl
  | cons e l ih =>
    cases h : firstMatch schema e.1 with
    | none =>
      have := firstMatch_none_iff.mp h
      simp only [routedMsgs, List.filterMap_cons, h, Option.map_none, List.filter_cons, this] at ih ⊢
      simpa using ih
    | some x =>
      have : ¬ Unrouted schema e.1 := by rw [← firstMatch_none_iff, h]; simp
      simp only [routedMsgs, List.filterMap_cons, h, Option.map_some, List.filter_cons, this] at ih ⊢
      simpa using ih

/-- **C18**: the messages of all topics together are, up to order, exactly one message per matched update, one per
matched delete and the header; and the header's entries are exactly: the unmatched updates and deletes, the sub-batches,
and one counting entry per prefix with matched keys. -/
theorem C18_addBlock_exact {C : Codec} {o : MapOrder} {p p' : Producer} {a : BlockArgs} {tm : GMap GoStr (List Msg)}
    (h : addBlock' C o p a = (p', .ok tm)) :
    ∃ b : Batch, b.number = a.number ∧ b.weight = natBytes a.weight.natAbs ∧ b.parentHash = a.parentHash ∧
      (flat tm).Perm
        ((a.updates.entries.filter (fun e => ¬ Unrouted p.schema e.1)).map (updMsg C a.hash) ++
         (a.deletes.entries.filter (fun e => ¬ Unrouted p.schema e.1)).map (delMsg C a.hash) ++
         [headerMsg C a.hash b]) ∧
      (∀ k v, a.updates.get? k = some v → Unrouted p.schema k → k ∉ a.deletes.keys →
        b.updates.get? k = some { value := v }) ∧
      (∀ k, k ∈ a.deletes.keys → Unrouted p.schema k → b.updates.get? k = some { delete := true }) ∧
      (∀ k x, a.batches.get? k = some x → b.updates.get? k = some { subbatch := x }) ∧
      (∀ k r, b.updates.get? k = some r →
        (∃ v, a.updates.get? k = some v ∧ Unrouted p.schema k ∧ r = { value := v }) ∨
        (k ∈ a.deletes.keys ∧ Unrouted p.schema k ∧ r = { delete := true }) ∨
        (∃ x, a.batches.get? k = some x ∧ r = { subbatch := x }) ∨
        (Counted p.schema a.updates a.deletes k ∧ r = { count := r.count } ∧ 0 < r.count)) := by
  obtain ⟨b, hb1, hb2, hb3, hb4, rfl, hinv, -⟩ := addBlock_ok h
  have notCounted : ∀ k, Inline p.schema a.updates a.deletes k ∨ k ∈ a.batches.keys →
      blockCount p.schema a.updates a.deletes k = 0 := by
    intro k hk
    refine Classical.byContradiction fun h0 => hinv (.inr (.inr ⟨k, blockCount_pos_iff.mp h0, hk⟩))
  have notBatch : ∀ k, Inline p.schema a.updates a.deletes k → a.batches.get? k = none := by
    intro k hk
    refine (GMap.get?_eq_none_iff _).mpr fun hm => hinv (.inr (.inl ⟨k, hm, hk⟩))
  refine ⟨b, hb1, hb2, hb3, ?_, ?_, ?_, ?_, ?_⟩
  · refine (flat_pushMsg _ _ _).trans (List.Perm.append_right _ ?_)
    refine (abMid_flat o p a.hash a.updates a.deletes).trans ?_
    rw [routedMsgs_eq, routedMsgs_eq]
    exact List.Perm.refl _
  · intro k v hv hu hd
    have hin : Inline p.schema a.updates a.deletes k := ⟨hu, .inl ((GMap.mem_keys_iff _).mpr ⟨v, hv⟩)⟩
    have hd' : a.deletes.get? k = none := (GMap.get?_eq_none_iff _).mpr hd
    simp [hb4, headerRec, notCounted k (.inl hin), notBatch k hin, inlineRec, hu, hd', hv]
  · intro k hk hu
    have hin : Inline p.schema a.updates a.deletes k := ⟨hu, .inr hk⟩
    obtain ⟨v, hv⟩ := (GMap.mem_keys_iff _).mp hk
    simp [hb4, headerRec, notCounted k (.inl hin), notBatch k hin, inlineRec, hu, hv]
  · intro k x hx
    have hk : k ∈ a.batches.keys := (GMap.mem_keys_iff _).mpr ⟨x, hx⟩
    simp [hb4, headerRec, notCounted k (.inr hk), hx]
  · intro k r hr
    rw [hb4, headerRec] at hr
    by_cases h0 : blockCount p.schema a.updates a.deletes k = 0
    · simp only [h0, if_true, Option.none_or] at hr
      cases hx : a.batches.get? k with
      | some x =>
        simp only [hx, Option.map_some, Option.some_or, Option.some.injEq] at hr
        exact .inr (.inr (.inl ⟨x, rfl, hr.symm⟩))
      | none =>
        simp only [hx, Option.map_none, Option.none_or, inlineRec] at hr
        by_cases hu : Unrouted p.schema k
        · simp only [hu, if_true] at hr
          cases hd : a.deletes.get? k with
          | some d =>
            simp only [hd, Option.map_some, Option.some_or, Option.some.injEq] at hr
            exact .inr (.inl ⟨(GMap.mem_keys_iff _).mpr ⟨d, hd⟩, hu, hr.symm⟩)
          | none =>
            simp only [hd, Option.map_none, Option.none_or, Option.map_eq_some_iff] at hr
            obtain ⟨v, hv, rfl⟩ := hr
            exact .inl ⟨v, hv, hu, rfl⟩
        · simp [hu] at hr
    · simp only [h0, if_false, Option.some_or, Option.some.injEq] at hr
      subst hr
      exact .inr (.inr (.inr ⟨blockCount_pos_iff.mp h0, rfl, by simp only []; omega⟩))

example : ∃ p' tm, addBlock' Avro.codec MapOrder.rev exProducer exBlock = (p', .ok tm) ∧
    ¬ Unrouted exProducer.schema (str "state/a") ∧ Unrouted exProducer.schema (str "head") := by
  obtain ⟨p', tm, h⟩ := exBlock_ok
  exact ⟨p', tm, h, by decide, by decide⟩

/-- **C17**: the header announces under every prefix exactly the number of messages produced for keys matched to it, and
no prefix with messages is left out. -/
theorem C17_counts {C : Codec} {o : MapOrder} {p p' : Producer} {a : BlockArgs} {tm : GMap GoStr (List Msg)}
    (h : addBlock' C o p a = (p', .ok tm)) :
    ∃ b : Batch, headerMsg C a.hash b ∈ flat tm ∧ b.number = a.number ∧ b.parentHash = a.parentHash ∧
      ∀ (pre : GoStr) (q : Msg → Bool), (∀ m, q m = true ↔ MsgFor C p.schema a.hash pre m) →
        (b.updates.get? pre = some { count := ((flat tm).countP q : Int) } ∨
         ((flat tm).countP q = 0 ∧ ∀ r, b.updates.get? pre = some r → r.count = 0)) := by
  obtain ⟨b, hb1, hb2, hb3, hb4, rfl, hinv, -⟩ := addBlock_ok h
  have hflat := (flat_pushMsg (abMid o p a.hash a.updates a.deletes).tm p.defaultTopic
    (headerMsg C a.hash b)).trans (List.Perm.append_right _ (abMid_flat o p a.hash a.updates a.deletes))
  refine ⟨b, hflat.mem_iff.mpr (by simp), hb1, hb3, ?_⟩
  intro pre q hq
  have hcount : (flat (pushMsg (abMid o p a.hash a.updates a.deletes).tm p.defaultTopic
      (headerMsg C a.hash b))).countP q = blockCount p.schema a.updates a.deletes pre := by
    rw [hflat.countP_eq, List.countP_append, List.countP_append]
    have hh : q (headerMsg C a.hash b) = false := by
      rw [← Bool.not_eq_true, hq]
      rintro ⟨k, t, _, h1 | h1⟩ <;>
        · have := congrArg (fun l => l.headD 0) h1
          simp only [headerMsg, keyOf_headD, MsgId.type] at this
          revert this; decide
    have gen : ∀ {α : Type} (mk : GoStr → α → Msg) (l : List (GoStr × α)),
        (∀ k x, q (mk k x) = true ↔ ∃ t, Routes p.schema k pre t) →
        (routedMsgs p.schema mk l).countP q = cnt p.schema pre l := by
      intro α mk l hmk
      induction l with
      | nil => rfl
      | cons e l ih =>
        cases hm : firstMatch p.schema e.1 with
        | none =>
          have e1 : routedMsgs p.schema mk (e :: l) = routedMsgs p.schema mk l := by simp [routedMsgs, hm]
          have e2 : cnt p.schema pre (e :: l) = cnt p.schema pre l := by simp [cnt, hm]
          rw [e1, e2, ih]
        | some x =>
          obtain ⟨pr, t⟩ := x
          have e1 : routedMsgs p.schema mk (e :: l) = mk e.1 e.2 :: routedMsgs p.schema mk l := by simp [routedMsgs, hm]
          rw [e1]
          by_cases hp : pr = pre
          · subst hp
            have : q (mk e.1 e.2) = true := (hmk _ _).mpr ⟨t, firstMatch_some_iff.mp hm⟩
            have e2 : cnt p.schema pr (e :: l) = cnt p.schema pr l + 1 := by simp [cnt, hm]
            rw [List.countP_cons_of_pos this, ih, e2]
          · have : ¬ q (mk e.1 e.2) = true := by
              rw [hmk]; rintro ⟨t', ht⟩
              rw [← firstMatch_some_iff, hm] at ht; simp at ht; exact hp ht.1
            have e2 : cnt p.schema pre (e :: l) = cnt p.schema pre l := by simp [cnt, hm, hp]
            rw [List.countP_cons_of_neg this, ih, e2]
    rw [gen (updMk a.hash), gen (delMk a.hash)]
    · simp [blockCount, hh]
    · intro k x
      rw [hq]
      constructor
      · rintro ⟨k', t, hr, h1 | h1⟩
        · have := congrArg (fun l => l.headD 0) (show keyOf C (.delete a.hash k) = keyOf C (.update a.hash k') from h1)
          exact absurd this (by simp only [keyOf_headD, MsgId.type]; decide)
        · have := congrArg (fun l => l.drop 33) (show keyOf C (.delete a.hash k) = keyOf C (.delete a.hash k') from h1)
          simp only [keyOf_drop33, keyTail] at this; subst this; exact ⟨t, hr⟩
      · rintro ⟨t, ht⟩; exact ⟨k, t, ht, .inr rfl⟩
    · intro k x
      rw [hq]
      constructor
      · rintro ⟨k', t, hr, h1 | h1⟩
        · have := congrArg (fun l => l.drop 33) (show keyOf C (.update a.hash k) = keyOf C (.update a.hash k') from h1)
          simp only [keyOf_drop33, keyTail] at this; subst this; exact ⟨t, hr⟩
        · have := congrArg (fun l => l.headD 0) (show keyOf C (.update a.hash k) = keyOf C (.delete a.hash k') from h1)
          exact absurd this (by simp only [keyOf_headD, MsgId.type]; decide)
      · rintro ⟨t, ht⟩; exact ⟨k, t, ht, .inl rfl⟩
  change b.updates.get? pre = some { count := ((flat (pushMsg (abMid o p a.hash a.updates a.deletes).tm p.defaultTopic
      (headerMsg C a.hash b))).countP q : Int) } ∨ ((flat (pushMsg (abMid o p a.hash a.updates a.deletes).tm p.defaultTopic
      (headerMsg C a.hash b))).countP q = 0 ∧ _)
  rw [hcount, hb4, headerRec]
  by_cases h0 : blockCount p.schema a.updates a.deletes pre = 0
  · right
    refine ⟨h0, ?_⟩
    intro r hr
    simp only [h0, if_true, Option.none_or] at hr
    cases hx : a.batches.get? pre with
    | some x => simp [hx] at hr; subst hr; rfl
    | none =>
      simp only [hx, Option.map_none, Option.none_or, inlineRec] at hr
      split at hr
      · cases hd : a.deletes.get? pre with
        | some d => simp [hd] at hr; subst hr; rfl
        | none => simp [hd] at hr; obtain ⟨v, _, rfl⟩ := hr; rfl
      · simp at hr
  · left; simp [h0]

/-- In the example block, prefix "state/" is announced with count 3 (two updates, one delete). -/
example : ∃ p' tm, addBlock' Avro.codec MapOrder.rev exProducer exBlock = (p', .ok tm) ∧
    blockCount exProducer.schema exBlock.updates exBlock.deletes (str "state/") = 3 := by
  obtain ⟨p', tm, h⟩ := exBlock_ok
  exact ⟨p', tm, h, by decide +kernel⟩

/-- **C19** (blocks): every message of a topic is the message of a key whose first matching schema entry names that topic, or
it is the header in the default topic; and every matched key's message and the header are where they belong. -/
theorem C19_addBlock_topics {C : Codec} {o : MapOrder} {p p' : Producer} {a : BlockArgs} {tm : GMap GoStr (List Msg)}
    (h : addBlock' C o p a = (p', .ok tm)) :
    ∃ b : Batch,
      (∀ t msgs m, tm.get? t = some msgs → m ∈ msgs →
        (∃ k v pre, a.updates.get? k = some v ∧ Routes p.schema k pre t ∧ m = updMsg C a.hash (k, v)) ∨
        (∃ k pre, k ∈ a.deletes.keys ∧ Routes p.schema k pre t ∧ m = delMsg C a.hash (k, ())) ∨
        (t = p.defaultTopic ∧ m = headerMsg C a.hash b)) ∧
      (∀ k v pre t, a.updates.get? k = some v → Routes p.schema k pre t →
        ∃ msgs, tm.get? t = some msgs ∧ updMsg C a.hash (k, v) ∈ msgs) ∧
      (∀ k pre t, k ∈ a.deletes.keys → Routes p.schema k pre t →
        ∃ msgs, tm.get? t = some msgs ∧ delMsg C a.hash (k, ()) ∈ msgs) ∧
      (∃ msgs, tm.get? p.defaultTopic = some (msgs ++ [headerMsg C a.hash b])) := by
  obtain ⟨b, hb1, hb2, hb3, hb4, rfl, hinv, -⟩ := addBlock_ok h
  have hmid := abMid_tm o p a.hash a.updates a.deletes
  have hget : ∀ t, ((pushMsg (abMid o p a.hash a.updates a.deletes).tm p.defaultTopic (headerMsg C a.hash b)).get? t).getD [] =
      topicMsgs p.schema (updMk a.hash) t (o.ord 0 a.updates.entries) ++
      topicMsgs p.schema (delMk a.hash) t (o.ord 1 a.deletes.entries) ++
      (if p.defaultTopic = t then [headerMsg C a.hash b] else []) := by
    intro t
    rw [get?_pushMsg]
    by_cases e : p.defaultTopic = t
    · subst e; simp [hmid]
    · simp [e, hmid]
  have hsome : ∀ t m, m ∈ ((pushMsg (abMid o p a.hash a.updates a.deletes).tm p.defaultTopic (headerMsg C a.hash b)).get? t).getD [] →
      ∃ msgs, (pushMsg (abMid o p a.hash a.updates a.deletes).tm p.defaultTopic (headerMsg C a.hash b)).get? t = some msgs ∧ m ∈ msgs := by
    intro t m hm
    cases hg : (pushMsg (abMid o p a.hash a.updates a.deletes).tm p.defaultTopic (headerMsg C a.hash b)).get? t with
    | none => simp [hg] at hm
    | some msgs => exact ⟨msgs, rfl, by simpa [hg] using hm⟩
  have memT : ∀ {α : Type} (mk : GoStr → α → Msg) (t : GoStr) (l : List (GoStr × α)) (m : Msg),
      m ∈ topicMsgs p.schema mk t l ↔ ∃ e ∈ l, (∃ pre, Routes p.schema e.1 pre t) ∧ m = mk e.1 e.2 := by
    intro α mk t l m
    simp only [topicMsgs, List.mem_filterMap]
    constructor
    · rintro ⟨e, he, hm⟩
      split at hm
      · rename_i hf
        obtain ⟨⟨pre, t'⟩, hf', rfl⟩ := Option.map_eq_some_iff.mp hf
        exact ⟨e, he, ⟨pre, firstMatch_some_iff.mp hf'⟩, by simpa using hm.symm⟩
      · simp at hm
    · rintro ⟨e, he, ⟨pre, hr⟩, rfl⟩
      exact ⟨e, he, by simp [firstMatch_some_iff.mpr hr]⟩
  refine ⟨b, ?_, ?_, ?_, ?_⟩
  · intro t msgs m ht hm
    have hm' := hget t
    change (pushMsg (abMid o p a.hash a.updates a.deletes).tm p.defaultTopic (headerMsg C a.hash b)).get? t = some msgs at ht
    rw [ht, Option.getD_some] at hm'
    rw [hm', List.mem_append, List.mem_append, memT, memT] at hm
    rcases hm with (⟨e, he, ⟨pre, hr⟩, rfl⟩ | ⟨e, he, ⟨pre, hr⟩, rfl⟩) | hm
    · refine .inl ⟨e.1, e.2, pre, ?_, hr, rfl⟩
      rw [GMap.get?_eq_some_iff]; exact (o.perm 0 _).mem_iff.mp he
    · exact .inr (.inl ⟨e.1, pre, List.mem_map_of_mem (f := Prod.fst) ((o.perm 1 _).mem_iff.mp he), hr, rfl⟩)
    · split at hm
      · rename_i e; exact .inr (.inr ⟨e.symm, by simpa using hm⟩)
      · simp at hm
  · intro k v pre t hv hr
    apply hsome
    rw [hget]
    refine List.mem_append_left _ (List.mem_append_left _ ((memT _ _ _ _).mpr ⟨(k, v), ?_, ⟨pre, hr⟩, rfl⟩))
    exact (o.perm 0 _).mem_iff.mpr ((GMap.get?_eq_some_iff _).mp hv)
  · intro k pre t hk hr
    apply hsome
    rw [hget]
    obtain ⟨⟨k', u⟩, he, rfl⟩ := List.mem_map.mp hk
    exact List.mem_append_left _ (List.mem_append_right _ ((memT _ _ _ _).mpr ⟨(k', u), (o.perm 1 _).mem_iff.mpr he, ⟨pre, hr⟩, rfl⟩))
  · change ∃ msgs, (pushMsg (abMid o p a.hash a.updates a.deletes).tm p.defaultTopic (headerMsg C a.hash b)).get? p.defaultTopic = _
    rw [get?_pushMsg]; exact ⟨_, if_pos rfl⟩

example : Routes exProducer.schema (str "state/a") (str "state/") (str "s") :=
  firstMatch_some_iff.mp (by decide)

/-- **C19** (sub-batches): after a successful `AddBlock`, `SendBatch` puts all messages of one of its sub-batches into a single
topic: the one of the first schema entry matching a path the sub-batch was given with, or the default topic. -/
theorem C19_sendBatch_topic {C : Codec} {o o' : MapOrder} {p p' p'' : Producer} {a : BlockArgs}
    {tm tm' : GMap GoStr (List Msg)} (h : addBlock' C o p a = (p', .ok tm)) {path : GoStr} {id : Hash}
    (hid : a.batches.get? path = some id) {deletes : List GoStr} {update : GMap GoStr Bytes}
    (hs : sendBatch C o' p' id deletes update = (p'', .ok tm')) :
    ∃ path' topic, a.batches.get? path' = some id ∧ tm'.keys = [topic] ∧
      ((∃ pre, Routes p.schema path' pre topic) ∨ (Unrouted p.schema path' ∧ topic = p.defaultTopic)) := by
  obtain ⟨b, -, -, -, -, -, -, -, -, hreg, -⟩ := addBlock_ok h
  obtain ⟨k, hk, hp⟩ := hreg id (List.mem_map.mpr ⟨(path, id), (GMap.get?_eq_some_iff _).mp hid, rfl⟩)
  rw [sendBatch_some hp] at hs
  simp only [Prod.mk.injEq, Except.ok.injEq] at hs
  refine ⟨k, topicOf p k, hk, ?_, ?_⟩
  · rw [← hs.2]; rfl
  · unfold topicOf
    cases hm : firstMatch p.schema k with
    | none => exact .inr ⟨firstMatch_none_iff.mp hm, rfl⟩
    | some x => obtain ⟨pre, t⟩ := x; exact .inl ⟨pre, firstMatch_some_iff.mp hm⟩

example : exBlock.batches.get? (str "state/sub") = some (exHash 9) := by decide +kernel

/-- **C20**: `AddBlock` succeeds exactly on valid arguments, in every iteration order. -/
theorem C20_addBlock_ok_iff (C : Codec) (o : MapOrder) (p : Producer) (a : BlockArgs) :
    (∃ tm, (addBlock' C o p a).2 = .ok tm) ↔ ¬ Invalid p.schema a.updates a.deletes a.batches := by
  generalize hr : addBlock' C o p a = r
  obtain ⟨p', r⟩ := r
  cases r with
  | error e =>
    have := (addBlock_err hr).1
    simp [this]
  | ok tm =>
    obtain ⟨b, -, -, -, -, -, hinv, -⟩ := addBlock_ok hr
    simp [hinv]

/-- **C20**: invalid arguments give one of the two documented errors. -/
theorem C20_addBlock_errors (C : Codec) (o : MapOrder) (p : Producer) (a : BlockArgs)
    (h : Invalid p.schema a.updates a.deletes a.batches) :
    (addBlock' C o p a).2 = .error .invalidBatch ∨ (addBlock' C o p a).2 = .error .prefixConflict := by
  generalize hr : addBlock' C o p a = r
  obtain ⟨p', r⟩ := r
  cases r with
  | error e => rcases (addBlock_err hr).2 with rfl | rfl <;> simp
  | ok tm =>
    obtain ⟨b, -, -, -, -, -, hinv, -⟩ := addBlock_ok hr
    exact absurd h hinv

/-- An update key that equals the counted prefix "state/" conflicts. -/
example : Invalid [⟨fun k => if (str "state/").isPrefixOf k ∧ k ≠ str "state/" then str "state/" else [], str "s"⟩]
    ((GMap.empty.insert (str "state/") [1]).insert (str "state/a") [1]) GMap.empty GMap.empty := by
  refine .inr (.inr ⟨str "state/", ⟨str "state/a", str "s", .inl (by decide +kernel), ?_⟩, .inl ⟨?_, .inl (by decide +kernel)⟩⟩)
  · exact firstMatch_some_iff.mp (by decide +kernel)
  · exact firstMatch_none_iff.mp (by decide +kernel)

example : ¬ Invalid exProducer.schema exBlock.updates exBlock.deletes exBlock.batches := by
  obtain ⟨p', tm, h⟩ := exBlock_ok
  exact (C20_addBlock_ok_iff Avro.codec MapOrder.rev exProducer exBlock).mp ⟨tm, by rw [h]⟩

/-- **C21**: a registered sub-batch is sent as one header announcing `n` followed by `n` messages with indices `0 .. n-1`: the
delete list, if any, then each update once in strictly ascending key order, all keyed by block and batch id. -/
theorem C21_sendBatch_exact {C : Codec} {o : MapOrder} {p : Producer} {id : Hash} {bi : BatchInfo}
    (hp : p.pendingBatches.get? id = some bi) (deletes : List GoStr) (update : GMap GoStr Bytes) :
    ∃ ks : List GoStr, ks.Perm update.keys ∧ ks.Pairwise (fun x y => strLe x y = true ∧ x ≠ y) ∧
      ∃ recs : List SubBatchRecord,
        recs = (if deletes = [] then [] else [⟨deletes, GMap.empty⟩]) ++
          ks.map (fun k => ⟨[], GMap.empty.insert k ((update.get? k).getD [])⟩) ∧
        (sendBatch C o p id deletes update).2 = .ok (GMap.empty.insert bi.topic
          (⟨keyOf C (.subHeader bi.block id), C.encInt recs.length⟩ ::
            recs.mapIdx (fun i r => ⟨keyOf C (.subMsg bi.block id i), C.encSub r⟩))) := by
  refine ⟨sortedKeys update, List.mergeSort_perm _ _, ?_, _, rfl, by rw [sendBatch_some hp]; rfl⟩
  have h1 : (sortedKeys update).Pairwise (fun x y => strLe x y = true) :=
    List.pairwise_mergeSort strLe_trans strLe_total _
  have h2 : (sortedKeys update).Nodup := (List.mergeSort_perm _ _).nodup_iff.mpr update.nodup
  exact h1.and h2

/-- **C21**: the result does not depend on map iteration order. -/
theorem C21_sendBatch_deterministic (C : Codec) (o o' : MapOrder) (p : Producer) (id : Hash) (deletes : List GoStr)
    (update : GMap GoStr Bytes) : sendBatch C o p id deletes update = sendBatch C o' p id deletes update := by
  cases h : p.pendingBatches.get? id with
  | none => simp [sendBatch, h]
  | some bi => rw [sendBatch_some h, sendBatch_some h]

example : (exProducer.pendingBatches.insert (exHash 9) ⟨str "s", exHash 1⟩).get? (exHash 9) = some ⟨str "s", exHash 1⟩ := by
  decide +kernel

/-- Messages with distinct identities have distinct keys. -/
theorem keys_nodup {C : Codec} (hC : C.Lawful) {ids : List MsgId} (hr : ∀ i ∈ ids, i.InRange) (hn : ids.Nodup) :
    (ids.map (keyOf C)).Nodup := by
  rw [List.nodup_iff_pairwise_ne, List.pairwise_map]
  refine (List.nodup_iff_pairwise_ne.mp hn).imp_of_mem ?_
  intro a b ha hb hne he
  exact hne (keyOf_injective hC (hr a ha) (hr b hb) he)

/-- **C25** for the messages of a block: no two of them have the same key, and each key names the block. -/
theorem C25_addBlock_keys {C : Codec} (hC : C.Lawful) {o : MapOrder} {p p' : Producer} {a : BlockArgs}
    {tm : GMap GoStr (List Msg)} (h : addBlock' C o p a = (p', .ok tm)) :
    ((flat tm).map Msg.key).Nodup ∧
      ∀ m ∈ flat tm, ∃ i : MsgId, i.InRange ∧ i.block = a.hash ∧ m.key = keyOf C i := by
  obtain ⟨b, -, -, -, hp, -⟩ := C18_addBlock_exact h
  let us := (a.updates.entries.filter (fun e => ¬ Unrouted p.schema e.1)).map (fun e => MsgId.update a.hash e.1)
  let ds := (a.deletes.entries.filter (fun e => ¬ Unrouted p.schema e.1)).map (fun e => MsgId.delete a.hash e.1)
  have hk : ((flat tm).map Msg.key).Perm ((us ++ ds ++ [MsgId.batch a.hash]).map (keyOf C)) := by
    refine (hp.map Msg.key).trans (List.Perm.of_eq ?_)
    simp only [us, ds, List.map_append, List.map_map]
    rfl
  have hr : ∀ i ∈ us ++ ds ++ [MsgId.batch a.hash], i.InRange ∧ i.block = a.hash := by
    intro i hi
    rcases List.mem_append.mp hi with hi | hi
    · rcases List.mem_append.mp hi with hi | hi
      · obtain ⟨e, -, rfl⟩ := List.mem_map.mp hi; exact ⟨trivial, rfl⟩
      · obtain ⟨e, -, rfl⟩ := List.mem_map.mp hi; exact ⟨trivial, rfl⟩
    · simp only [List.mem_singleton] at hi; subst hi; exact ⟨trivial, rfl⟩
  constructor
  · refine hk.nodup_iff.mpr (keys_nodup hC (fun i hi => (hr i hi).1) ?_)
    have hu : us.Nodup := by
      have := List.nodup_iff_pairwise_ne.mp a.updates.nodup
      rw [List.pairwise_map] at this
      rw [List.nodup_iff_pairwise_ne, List.pairwise_map]
      exact (this.filter _).imp (fun hne he => hne (by injection he))
    have hd : ds.Nodup := by
      have := List.nodup_iff_pairwise_ne.mp a.deletes.nodup
      rw [List.pairwise_map] at this
      rw [List.nodup_iff_pairwise_ne, List.pairwise_map]
      exact (this.filter _).imp (fun hne he => hne (by injection he))
    refine List.nodup_append.mpr ⟨List.nodup_append.mpr ⟨hu, hd, ?_⟩, by simp, ?_⟩
    · intro x hx y hy he
      obtain ⟨_, -, rfl⟩ := List.mem_map.mp hx
      obtain ⟨_, -, rfl⟩ := List.mem_map.mp hy
      cases he
    · intro x hx y hy he
      simp only [List.mem_singleton] at hy; subst hy; subst he
      rcases List.mem_append.mp hx with hx | hx <;> obtain ⟨_, -, h0⟩ := List.mem_map.mp hx <;> cases h0
  · intro m hm
    obtain ⟨i, hi, hke⟩ := List.mem_map.mp (hk.mem_iff.mp (List.mem_map_of_mem hm))
    exact ⟨i, (hr i hi).1, (hr i hi).2, hke.symm⟩

example : Avro.codec.Lawful ∧ ∃ p' tm, addBlock' Avro.codec MapOrder.rev exProducer exBlock = (p', .ok tm) :=
  ⟨Avro.codec_lawful, exBlock_ok⟩

/-- **C25** for the messages of a sub-batch: no two of them have the same key (as long as the indices fit 32 bits), and each key
names the block and the sub-batch. -/
theorem C25_sendBatch_keys {C : Codec} (hC : C.Lawful) {o : MapOrder} {p p' : Producer} {id : Hash} {bi : BatchInfo}
    {deletes : List GoStr} {update : GMap GoStr Bytes} {tm : GMap GoStr (List Msg)}
    (hp : p.pendingBatches.get? id = some bi) (hsize : update.keys.length < 2 ^ 31)
    (h : sendBatch C o p id deletes update = (p', .ok tm)) :
    ((flat tm).map Msg.key).Nodup ∧
      ∀ m ∈ flat tm, m.key = keyOf C (.subHeader bi.block id) ∨ ∃ i : Nat, m.key = keyOf C (.subMsg bi.block id i) := by
  obtain ⟨ks, hks, -, recs, hrecs, hr⟩ := C21_sendBatch_exact (C := C) (o := o) hp deletes update
  rw [h] at hr
  simp only [Except.ok.injEq] at hr
  have hlen : recs.length ≤ 1 + update.keys.length := by
    rw [hrecs, List.length_append, List.length_map, hks.length_eq]
    split <;> simp
  have hflat : (flat tm).map Msg.key =
      (MsgId.subHeader bi.block id :: (List.range recs.length).map (fun i : Nat => MsgId.subMsg bi.block id i)).map (keyOf C) := by
    rw [hr]
    have e1 : flat (GMap.empty.insert bi.topic (⟨keyOf C (.subHeader bi.block id), C.encInt recs.length⟩ ::
        recs.mapIdx (fun i r => ⟨keyOf C (.subMsg bi.block id i), C.encSub r⟩))) =
        (⟨keyOf C (.subHeader bi.block id), C.encInt recs.length⟩ ::
        recs.mapIdx (fun i r => (⟨keyOf C (.subMsg bi.block id i), C.encSub r⟩ : Msg))) := by
      simp [flat, GMap.insert, GMap.empty, GMap.put]
    rw [e1, List.map_cons, List.map_cons]
    congr 1
    apply List.ext_getElem
    · simp
    · intro i h1 h2; simp
  constructor
  · rw [hflat]
    refine keys_nodup hC ?_ ?_
    · intro i hi
      rcases List.mem_cons.mp hi with rfl | hi
      · trivial
      · obtain ⟨j, hj, rfl⟩ := List.mem_map.mp hi
        rw [List.mem_range] at hj
        show InInt32 (j : Int)
        unfold InInt32
        omega
    · refine List.nodup_cons.mpr ⟨?_, ?_⟩
      · intro hm; obtain ⟨_, -, h0⟩ := List.mem_map.mp hm; cases h0
      · rw [List.nodup_iff_pairwise_ne, List.pairwise_map]
        refine (List.nodup_iff_pairwise_ne.mp List.nodup_range).imp ?_
        intro x y hne he
        apply hne
        injection he with _ _ h3
        omega
  · intro m hm
    have := List.mem_map_of_mem (f := Msg.key) hm
    rw [hflat] at this
    obtain ⟨i, hi, hke⟩ := List.mem_map.mp this
    rcases List.mem_cons.mp hi with rfl | hi
    · exact .inl hke.symm
    · obtain ⟨j, -, rfl⟩ := List.mem_map.mp hi
      exact .inr ⟨j, hke.symm⟩

example : ∃ p' tm, sendBatch Avro.codec .rev
      { exProducer with pendingBatches := exProducer.pendingBatches.insert (exHash 9) ⟨str "s", exHash 1⟩ } (exHash 9)
      [str "state/d"] exBlock.updates = (p', .ok tm) ∧ exBlock.updates.keys.length < 2 ^ 31 :=
  ⟨_, _, rfl, by decide +kernel⟩

/-! ## C22, C23: histories -/

/-- A call on the producer. -/
inductive POp where
  | addBlock (a : BlockArgs)
  | sendBatch (id : Hash) (deletes : List GoStr) (update : GMap GoStr Bytes)

/-- Perform a call. -/
def Producer.call (C : Codec) (o : MapOrder) (p : Producer) : POp → Producer × Except Err (GMap GoStr (List Msg))
  | .addBlock a => addBlock' C o p a
  | .sendBatch id d u => sendBatch C o p id d u

/-- A history of calls with the iteration order of each; returns the final producer and for each call whether it succeeded. -/
def Producer.calls (C : Codec) (p : Producer) : List (POp × MapOrder) → Producer × List (POp × Bool)
  | [] => (p, [])
  | (op, o) :: rest =>
    let r := p.call C o op
    let r' := Producer.calls C r.1 rest
    (r'.1, (op, match r.2 with | .ok _ => true | .error _ => false) :: r'.2)

namespace Spec
/-- After the history, some `AddBlock` (successful or not) named `id` and no `SendBatch` of `id` came after it. -/
def mayBeOpen (id : Hash) (init : Prop) : List (POp × Bool) → Prop
  | [] => init
  | (.addBlock a, _) :: rest => mayBeOpen id (init ∨ id ∈ a.batches.entries.map Prod.snd) rest
  | (.sendBatch id' _ _, _) :: rest => mayBeOpen id (init ∧ id' ≠ id) rest

/-- After the history, some successful `AddBlock` named `id` and no `SendBatch` of `id` came after it. -/
def mustBeOpen (id : Hash) (init : Prop) : List (POp × Bool) → Prop
  | [] => init
  | (.addBlock a, ok) :: rest => mustBeOpen id (init ∨ (ok = true ∧ id ∈ a.batches.entries.map Prod.snd)) rest
  | (.sendBatch id' _ _, _) :: rest => mustBeOpen id (init ∧ id' ≠ id) rest
end Spec

theorem addBlock'_pend {C : Codec} {o : MapOrder} {p : Producer} {a : BlockArgs} (x : Hash) :
    (addBlock' C o p a).1.pendingBatches.get? x = p.pendingBatches.get? x ∨
      (x ∈ a.batches.entries.map Prod.snd ∧ ((addBlock' C o p a).1.pendingBatches.get? x).isSome) := by
  unfold addBlock'
  rw [addBlock_eq]
  rcases abBatches_pend (p := p) (hash := a.hash) (l := o.ord 2 a.batches.entries)
    (upd := (abMid o p a.hash a.updates a.deletes).upd) (pend := p.pendingBatches) x with h | ⟨k, h1, h2⟩
  · exact .inl h
  · refine .inr ⟨List.mem_map_of_mem (f := Prod.snd) ((o.perm 2 _).mem_iff.mp h1), ?_⟩
    simp only []; rw [h2]; rfl

theorem sendBatch_pend {C : Codec} {o : MapOrder} {p : Producer} {id : Hash} {d : List GoStr} {u : GMap GoStr Bytes}
    (x : Hash) : (sendBatch C o p id d u).1.pendingBatches.get? x =
      if id = x then none else p.pendingBatches.get? x := by
  cases h : p.pendingBatches.get? id with
  | none =>
    simp only [sendBatch, h]
    by_cases e : id = x
    · subst e; simp [h]
    · simp [e]
  | some bi => rw [sendBatch_some h]; exact GMap.get?_erase _ _ _

theorem calls_may {C : Codec} (x : Hash) (hist : List (POp × MapOrder)) (p : Producer) (init : Prop)
    (hi : (p.pendingBatches.get? x).isSome → init) :
    ((Producer.calls C p hist).1.pendingBatches.get? x).isSome → mayBeOpen x init (Producer.calls C p hist).2 := by
  induction hist generalizing p init with
  | nil => simpa [Producer.calls, mayBeOpen] using hi
  | cons e hist ih =>
    obtain ⟨op, o⟩ := e
    cases op with
    | addBlock a =>
      simp only [Producer.calls, mayBeOpen, Producer.call]
      apply ih
      intro hs
      rcases addBlock'_pend (C := C) (o := o) (p := p) (a := a) x with h | ⟨h, _⟩
      · rw [h] at hs; exact .inl (hi hs)
      · exact .inr h
    | sendBatch id d u =>
      simp only [Producer.calls, mayBeOpen, Producer.call]
      apply ih
      intro hs
      rw [sendBatch_pend] at hs
      split at hs
      · simp at hs
      · rename_i h; exact ⟨hi hs, h⟩

theorem calls_must {C : Codec} (x : Hash) (hist : List (POp × MapOrder)) (p : Producer) (init : Prop)
    (hi : init → (p.pendingBatches.get? x).isSome) :
    mustBeOpen x init (Producer.calls C p hist).2 → ((Producer.calls C p hist).1.pendingBatches.get? x).isSome := by
  induction hist generalizing p init with
  | nil => simpa [Producer.calls, mustBeOpen] using hi
  | cons e hist ih =>
    obtain ⟨op, o⟩ := e
    cases op with
    | addBlock a =>
      simp only [Producer.calls, mustBeOpen, Producer.call]
      apply ih
      intro hs
      rcases hs with hs | ⟨hok, hs⟩
      · rcases addBlock'_pend (C := C) (o := o) (p := p) (a := a) x with h | ⟨_, h⟩
        · rw [h]; exact hi hs
        · exact h
      · generalize hr : addBlock' C o p a = r at hok
        obtain ⟨p', r⟩ := r
        cases r with
        | error e => simp at hok
        | ok tm =>
          obtain ⟨b, -, -, -, -, -, -, -, -, hreg, -⟩ := addBlock_ok hr
          obtain ⟨k, _, hk⟩ := hreg x hs
          simp [hk]
    | sendBatch id d u =>
      simp only [Producer.calls, mustBeOpen, Producer.call]
      apply ih
      rintro ⟨h1, h2⟩
      rw [sendBatch_pend]; simp [h2, hi h1]

theorem sendBatch_ok_iff {C : Codec} {o : MapOrder} {p : Producer} {id : Hash} {d : List GoStr} {u : GMap GoStr Bytes} :
    (∃ tm, (sendBatch C o p id d u).2 = .ok tm) ↔ (p.pendingBatches.get? id).isSome := by
  cases h : p.pendingBatches.get? id with
  | none => simp [sendBatch, h]
  | some bi => rw [sendBatch_some h]; simp

/-- **C22**: for any history of calls on a fresh producer, `SendBatch` of `id` succeeds only if some `AddBlock` named `id` with no
`SendBatch` of it since, and it does succeed if such an `AddBlock` succeeded. -/
theorem C22_sendBatch_histories {C : Codec} {p : Producer} (hp : p.pendingBatches = GMap.empty)
    (hist : List (POp × MapOrder)) (o : MapOrder) (id : Hash) (d : List GoStr) (u : GMap GoStr Bytes) :
    ((∃ tm, (sendBatch C o (p.calls C hist).1 id d u).2 = .ok tm) → mayBeOpen id False (p.calls C hist).2) ∧
    (mustBeOpen id False (p.calls C hist).2 → ∃ tm, (sendBatch C o (p.calls C hist).1 id d u).2 = .ok tm) := by
  rw [sendBatch_ok_iff]
  exact ⟨calls_may id hist p False (by simp [hp]), calls_must id hist p False (by simp)⟩

theorem may_iff_must {id : Hash} {init init' : Prop} (hi : init ↔ init') {tr : List (POp × Bool)}
    (h : ∀ e ∈ tr, e.2 = true) : mayBeOpen id init tr ↔ mustBeOpen id init' tr := by
  induction tr generalizing init init' with
  | nil => exact hi
  | cons e tr ih =>
    obtain ⟨op, ok⟩ := e
    have hok : ok = true := h (op, ok) (by simp)
    have htl : ∀ e ∈ tr, e.2 = true := fun e he => h e (by simp [he])
    cases op with
    | addBlock a => simp only [mayBeOpen, mustBeOpen]; exact ih (by rw [hi]; simp [hok]) htl
    | sendBatch id' d u => simp only [mayBeOpen, mustBeOpen]; exact ih (by rw [hi]) htl

/-- **C22**: in histories without failed calls, exactly the registered and not yet sent ids can be sent. -/
theorem C22_sendBatch_iff {C : Codec} {p : Producer} (hp : p.pendingBatches = GMap.empty)
    (hist : List (POp × MapOrder)) (hok : ∀ e ∈ (p.calls C hist).2, e.2 = true)
    (o : MapOrder) (id : Hash) (d : List GoStr) (u : GMap GoStr Bytes) :
    (∃ tm, (sendBatch C o (p.calls C hist).1 id d u).2 = .ok tm) ↔ mustBeOpen id False (p.calls C hist).2 := by
  have h := C22_sendBatch_histories (C := C) hp hist o id d u
  exact ⟨fun hs => (may_iff_must Iff.rfl hok).mp (h.1 hs), h.2⟩

/-- **C22**: a refused `SendBatch` reports `ErrUnknownBatch` and changes nothing; an accepted one is refused the second time. -/
theorem C22_sendBatch_refused (C : Codec) (o o' : MapOrder) (p : Producer) (id : Hash) (d d' : List GoStr)
    (u u' : GMap GoStr Bytes) :
    (∀ e, (sendBatch C o p id d u).2 = .error e → e = .unknownBatch ∧ (sendBatch C o p id d u).1 = p) ∧
    (sendBatch C o' (sendBatch C o p id d u).1 id d' u').2 = .error .unknownBatch := by
  constructor
  · intro e he
    cases h : p.pendingBatches.get? id with
    | none => simp [sendBatch, h] at he ⊢; exact he.symm
    | some bi => rw [sendBatch_some h] at he; simp at he
  · have : (sendBatch C o p id d u).1.pendingBatches.get? id = none := by simp [sendBatch_pend]
    generalize (sendBatch C o p id d u).1 = q at this
    simp [sendBatch, this]

/-- A history in which a sub-batch is registered, sent, and cannot be sent again, while another one stays open. -/
example : ∃ hist : List (POp × MapOrder), (∀ e ∈ (exProducer.calls Avro.codec hist).2, e.2 = true) ∧ hist.length = 1 ∧
    mustBeOpen (exHash 9) False (exProducer.calls Avro.codec hist).2 := by
  obtain ⟨p', tm, h⟩ := exBlock_ok
  refine ⟨[(.addBlock exBlock, MapOrder.rev)], ?_, rfl, ?_⟩
  · simp [Producer.calls, Producer.call, h]
  · simp only [Producer.calls, Producer.call, h, mustBeOpen]
    exact .inr ⟨trivial, by decide +kernel⟩

/-- **C23** refuted: this `AddBlock` fails because "state/" is both a counted prefix and a sub-batch path, and afterwards
`SendBatch` of its sub-batch succeeds although no block with it was ever produced. -/
theorem C23_refuted : ∃ (p : Producer) (a : BlockArgs) (o : MapOrder) (id : Hash) (e : Err),
    (addBlock' Avro.codec o p a).2 = .error e ∧
    (∃ tm, (sendBatch Avro.codec o (addBlock' Avro.codec o p a).1 id [] GMap.empty).2 = .ok tm) ∧
    (sendBatch Avro.codec o p id [] GMap.empty).2 = .error .unknownBatch := by
  refine ⟨exProducer, { exBlock with batches := GMap.empty.insert (str "state/") (exHash 9) }, MapOrder.plain, exHash 9,
    .prefixConflict, ?_, ?_, ?_⟩
  · generalize hr : (addBlock' Avro.codec MapOrder.plain exProducer
      { exBlock with batches := GMap.empty.insert (str "state/") (exHash 9) }).2 = r
    have : (match (addBlock' Avro.codec MapOrder.plain exProducer
      { exBlock with batches := GMap.empty.insert (str "state/") (exHash 9) }).2 with
        | .error e => some e | .ok _ => none) = some Err.prefixConflict := by decide +kernel
    rw [hr] at this
    cases r with
    | ok _ => simp at this
    | error e => simp at this; rw [this]
  · rw [sendBatch_ok_iff]; decide +kernel
  · simp [sendBatch, exProducer]

/-- **C23**, the part that holds: a failed `AddBlock` without sub-batches leaves the producer as it was; with sub-batches, it changes
nothing but registrations of ids among its own sub-batches. Missing: those registrations are not undone (`C23_refuted`). -/
theorem C23_partial {C : Codec} {o : MapOrder} {p : Producer} {a : BlockArgs} {e : Err}
    (_h : (addBlock' C o p a).2 = .error e) :
    (a.batches = GMap.empty → (addBlock' C o p a).1 = p) ∧
    (addBlock' C o p a).1.schema = p.schema ∧ (addBlock' C o p a).1.defaultTopic = p.defaultTopic ∧
    ∀ x, x ∉ a.batches.entries.map Prod.snd →
      (addBlock' C o p a).1.pendingBatches.get? x = p.pendingBatches.get? x := by
  refine ⟨?_, ?_, ?_, ?_⟩
  · intro hb
    unfold addBlock'
    rw [addBlock_eq, hb]
    have : o.ord 2 (GMap.empty : GMap GoStr Hash).entries = [] := List.perm_nil.mp (o.perm 2 _)
    simp [this, abBatches]
  · unfold addBlock'; rw [addBlock_eq]
  · unfold addBlock'; rw [addBlock_eq]
  · intro x hx
    rcases addBlock'_pend (C := C) (o := o) (p := p) (a := a) x with h | ⟨h, _⟩
    · exact h
    · exact absurd h hx

example : ∃ (p : Producer) (a : BlockArgs) (e : Err), a.batches ≠ GMap.empty ∧
    (addBlock' Avro.codec MapOrder.plain p a).2 = .error e := by
  obtain ⟨p, a, o, id, e, h, _⟩ := C23_refuted
  refine ⟨exProducer, { exBlock with batches := GMap.empty.insert (str "x") Hash.zero }, .invalidBatch, ?_, ?_⟩
  · intro h; have := congrArg GMap.size h; revert this; decide +kernel
  · generalize hr : (addBlock' Avro.codec MapOrder.plain exProducer
      { exBlock with batches := GMap.empty.insert (str "x") Hash.zero }).2 = r
    have : (match (addBlock' Avro.codec MapOrder.plain exProducer
      { exBlock with batches := GMap.empty.insert (str "x") Hash.zero }).2 with
        | .error e => some e | .ok _ => none) = some Err.invalidBatch := by decide +kernel
    rw [hr] at this
    cases r with
    | ok _ => simp at this
    | error e => simp at this; rw [this]

/-! ## C24 -/

theorem mapM_error {α β : Type} {f : α → Except Err β} {l : List α} {x : α} (hx : x ∈ l) {e : Err} (hf : f x = .error e) :
    ∃ e', l.mapM f = .error e' := by
  induction l with
  | nil => simp at hx
  | cons a l ih =>
    rw [List.mapM_cons]
    cases ha : f a with
    | error e' => exact ⟨e', rfl⟩
    | ok b =>
      rcases List.mem_cons.mp hx with rfl | hx
      · rw [ha] at hf; simp at hf
      · obtain ⟨e', he⟩ := ih hx
        exact ⟨e', by rw [he]; rfl⟩

theorem mapM_ok {α β : Type} {f : α → Except Err β} {g : α → β} {l : List α} (h : ∀ x ∈ l, f x = .ok (g x)) :
    l.mapM f = .ok (l.map g) := by
  induction l with
  | nil => rfl
  | cons a l ih =>
    rw [List.mapM_cons, h a (by simp), ih (fun x hx => h x (by simp [hx]))]; rfl

namespace Spec
/-- Two different schema patterns, one a prefix of the other. -/
def Overlap (schema : GMap GoStr GoStr) : Prop :=
  ∃ i j rest, i ∈ schema.keys ∧ j ∈ schema.keys ∧ i ≠ j ∧ i = j ++ rest

/-- The pattern anchored at the start ('^' is byte 94). -/
def anchored (i : GoStr) : GoStr := if i.head? = some 94 then i else 94 :: i
end Spec

theorem hasPrefix_iff (s pre : GoStr) : hasPrefix s pre = true ↔ ∃ rest, s = pre ++ rest := by
  unfold hasPrefix
  rw [List.isPrefixOf_iff_prefix]
  exact ⟨fun ⟨t, h⟩ => ⟨t, h.symm⟩, fun ⟨t, h⟩ => ⟨t, h.symm⟩⟩

/-- **C24**: overlapping schemas are rejected in every iteration order. -/
theorem C24_overlap_rejected (o : MapOrder) (compile : GoStr → Option (GoStr → GoStr)) (d : GoStr) (schema : GMap GoStr GoStr)
    (h : Overlap schema) : ∃ e, newProducer o compile d schema = .error e := by
  obtain ⟨i, j, rest, hi, hj, hne, hp⟩ := h
  obtain ⟨⟨i', t⟩, hm, rfl⟩ := List.mem_map.mp hi
  have hany : (schema.keys.any (fun j => i' ≠ j && hasPrefix i' j)) = true := by
    rw [List.any_eq_true]
    exact ⟨j, hj, by simp [hne, (hasPrefix_iff i' j).mpr ⟨rest, hp⟩]⟩
  have hf : schemaEntry compile schema.keys i' t = .error .prefixOverlap := by
    unfold schemaEntry; rw [hany]; rfl
  obtain ⟨e, he⟩ := mapM_error (f := fun e => schemaEntry compile schema.keys e.1 e.2)
    ((o.perm 0 schema.entries).mem_iff.mpr hm) hf
  exact ⟨e, by unfold newProducer; rw [he]; rfl⟩

example : Overlap ((GMap.empty.insert (str "a/") (str "t")).insert (str "a/b/") (str "u")) :=
  ⟨str "a/b/", str "a/", str "b/", by decide +kernel, by decide +kernel, by decide, by decide⟩

/-- **C24**: a schema without overlap whose patterns compile is accepted, and the producer's schema consists (in some order) of
exactly the given entries, each with its pattern anchored at the start. -/
theorem C24_accepted (o : MapOrder) (compile : GoStr → Option (GoStr → GoStr)) (d : GoStr) (schema : GMap GoStr GoStr)
    (h : ¬ Overlap schema) (rx : GoStr → GoStr → GoStr)
    (hc : ∀ i ∈ schema.keys, (compile i).isSome ∧ compile (anchored i) = some (rx i)) :
    ∃ p, newProducer o compile d schema = .ok p ∧ p.defaultTopic = d ∧ p.pendingBatches = GMap.empty ∧
      p.schema.Perm (schema.entries.map (fun e => ⟨rx e.1, e.2⟩)) := by
  have hall : ∀ e ∈ o.ord 0 schema.entries, schemaEntry compile schema.keys e.1 e.2 = .ok ⟨rx e.1, e.2⟩ := by
    intro e he
    have hm := (o.perm 0 schema.entries).mem_iff.mp he
    have hk : e.1 ∈ schema.keys := List.mem_map_of_mem (f := Prod.fst) hm
    have hany : (schema.keys.any (fun j => e.1 ≠ j && hasPrefix e.1 j)) = false := by
      rw [← Bool.not_eq_true, List.any_eq_true]
      rintro ⟨j, hj, hb⟩
      simp only [ne_eq, decide_not, Bool.and_eq_true, Bool.not_eq_eq_eq_not, Bool.not_true, decide_eq_false_iff_not] at hb
      obtain ⟨rest, hr⟩ := (hasPrefix_iff _ _).mp hb.2
      exact h ⟨e.1, j, rest, hk, hj, hb.1, hr⟩
    obtain ⟨hc1, hc2⟩ := hc _ hk
    obtain ⟨f, hf⟩ := Option.isSome_iff_exists.mp hc1
    unfold schemaEntry
    rw [hany]
    simp only [Bool.false_eq_true, if_false, hf]
    by_cases hp : e.1.head? = some 94
    · have h94 : hasPrefix e.1 [94] = true := by
        rw [hasPrefix_iff]
        cases he1 : e.1 with
        | nil => simp [he1] at hp
        | cons x xs => simp [he1] at hp; exact ⟨xs, by simp [hp]⟩
      simp only [anchored, hp, if_true, hf, Option.some.injEq] at hc2
      simp [h94, hc2]
    · have h94 : hasPrefix e.1 [94] = false := by
        rw [← Bool.not_eq_true, hasPrefix_iff]
        rintro ⟨rest, hr⟩
        exact hp (by simp [hr])
      simp only [anchored, hp, if_false] at hc2
      simp [h94, hc2]
  refine ⟨⟨(o.ord 0 schema.entries).map (fun e => ⟨rx e.1, e.2⟩), d, GMap.empty⟩, ?_, rfl, rfl, (o.perm 0 _).map _⟩
  unfold newProducer
  rw [mapM_ok hall]; rfl

example : ¬ Overlap ((GMap.empty.insert (str "a/") (str "t")).insert (str "b/") (str "u")) := by
  rintro ⟨i, j, rest, hi, hj, hne, hp⟩
  have hk : ((GMap.empty.insert (str "a/") (str "t")).insert (str "b/") (str "u")).keys = [str "a/", str "b/"] := by decide +kernel
  rw [hk] at hi hj
  simp only [List.mem_cons, List.not_mem_nil, or_false] at hi hj
  rcases hi with rfl | rfl <;> rcases hj with rfl | rfl
  · exact hne rfl
  · simp [str] at hp
  · simp [str] at hp
  · exact hne rfl

end Verif
