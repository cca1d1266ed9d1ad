import Verif.Spec.Resolve
import Verif.Proofs.GMap
import Verif.Props.MuxConsumer
/-! # C152: making a producer of several transports -/
namespace Verif
open Spec

/-! ## URLs -/

theorem beforeSep_speaks (s : GoStr) : Speaks s (beforeSep s) := by
  induction s with
  | nil => exact .inl rfl
  | cons c cs ih =>
    by_cases h : (str "://").isPrefixOf (c :: cs) = true
    · rw [beforeSep, if_pos h]
      obtain ⟨r, hr⟩ := List.isPrefixOf_iff_prefix.mp h
      exact .inr ⟨r, by rw [← hr]; rfl⟩
    · rw [beforeSep, if_neg h]
      rcases ih with e | ⟨r, e⟩
      · exact .inl (by rw [← e])
      · exact .inr ⟨r, by rw [List.cons_append, List.cons_append, ← e]⟩

theorem beforeSep_of_speaks {s p : GoStr} (hp : ∀ c ∈ p, c ≠ 58) (h : Speaks s p) : beforeSep s = p := by
  have e : str "://" = [58, 47, 47] := by decide
  induction p generalizing s with
  | nil =>
    rcases h with rfl | ⟨r, rfl⟩
    · rfl
    · simp [e, beforeSep]
  | cons c p ih =>
    have hc : c ≠ 58 := hp c (by simp)
    have hne : ∀ t : GoStr, ¬ ((str "://").isPrefixOf (c :: t) = true) := by
      intro t; simp [e, List.isPrefixOf]; exact fun h => absurd h.symm hc
    rcases h with rfl | ⟨r, rfl⟩
    · rw [beforeSep, if_neg (hne _), ih (fun c hc => hp c (by simp [hc])) (.inl rfl)]
    · rw [List.cons_append, List.cons_append, beforeSep, if_neg (hne _), ih (fun c hc => hp c (by simp [hc])) (.inr ⟨r, rfl⟩)]

theorem trimPrefix_bare (url : GoStr) : Bare url (trimPrefix (str "cardinal://") url) := by
  unfold trimPrefix
  split
  · rename_i h
    obtain ⟨r, hr⟩ := List.isPrefixOf_iff_prefix.mp h
    exact .inl (by rw [← hr]; simp)
  · rename_i h
    refine .inr ⟨rfl, fun r hr => h (List.isPrefixOf_iff_prefix.mpr ⟨r, hr.symm⟩)⟩

theorem Spec.Bare.eq {url b : GoStr} (h : Bare url b) : b = trimPrefix (str "cardinal://") url := by
  rcases trimPrefix_bare url with h' | ⟨h', hn'⟩ <;> rcases h with h | ⟨h, hn⟩
  · exact List.append_cancel_left (h.symm.trans h')
  · exact absurd h' (hn _)
  · exact absurd h (hn' _)
  · exact h.symm.trans h'

/-- **C152**: the protocol the resolver sees is what stands before the first `://`, after a prefix `cardinal://`. -/
theorem C152_protocol {p : GoStr} (hp : ∀ c ∈ p, c ≠ 58) (url : GoStr) : protocolOf url = p ↔ ∃ b, Bare url b ∧ Speaks b p := by
  constructor
  · rintro rfl
    exact ⟨_, trimPrefix_bare url, beforeSep_speaks _⟩
  · rintro ⟨b, hb, hs⟩
    rw [hb.eq] at hs
    exact beforeSep_of_speaks hp hs

theorem ws_nocolon : ∀ c ∈ str "ws", c ≠ 58 := by decide
theorem wss_nocolon : ∀ c ∈ str "wss", c ≠ 58 := by decide
theorem kafka_nocolon : ∀ c ∈ str "kafka", c ≠ 58 := by decide
theorem null_nocolon : ∀ c ∈ str "null", c ≠ 58 := by decide

/-- **C95**: which consumer is made for a URL. -/
theorem C95_kinds (url : GoStr) :
    (resolveConsumer url = .ok .kafka ↔ ∃ b, Bare url b ∧ Speaks b (str "kafka")) ∧
    (resolveConsumer url = .ok .ws ↔ ∃ b, Bare url b ∧ (Speaks b (str "ws") ∨ Speaks b (str "wss"))) ∧
    (resolveConsumer url = .ok .null ↔ ∃ b, Bare url b ∧ Speaks b (str "null")) := by
  have k := C152_protocol kafka_nocolon url
  have w := C152_protocol ws_nocolon url
  have w' := C152_protocol wss_nocolon url
  have n := C152_protocol null_nocolon url
  have or : (∃ b, Bare url b ∧ (Speaks b (str "ws") ∨ Speaks b (str "wss"))) ↔ (protocolOf url = str "ws" ∨ protocolOf url = str "wss") := by
    rw [w, w']
    constructor
    · rintro ⟨b, h, h' | h'⟩
      · exact .inl ⟨b, h, h'⟩
      · exact .inr ⟨b, h, h'⟩
    · rintro (⟨b, h, h'⟩ | ⟨b, h, h'⟩)
      · exact ⟨b, h, .inl h'⟩
      · exact ⟨b, h, .inr h'⟩
  rw [← k, or, ← n]
  have d1 : str "kafka" ≠ str "ws" := by decide
  have d2 : str "kafka" ≠ str "wss" := by decide
  have d3 : str "kafka" ≠ str "null" := by decide
  have d4 : str "ws" ≠ str "null" := by decide
  have d5 : str "wss" ≠ str "null" := by decide
  unfold resolveConsumer
  by_cases h1 : protocolOf url = str "kafka"
  · simp [h1, d1, d2, d3]
  · by_cases h2 : protocolOf url = str "ws" ∨ protocolOf url = str "wss"
    · rcases h2 with h2 | h2 <;> simp [h2, d1.symm, d2.symm, d4, d5]
    · by_cases h3 : protocolOf url = str "null"
      · simp [h3, d3.symm, d4.symm, d5.symm]
      · simp [h1, h2, h3]

/-! ## One producer -/

/-- The state after a producer of this kind has been made. -/
def Made.after (s : Made) : Option Int → Made
  | some port => { s with next := s.next + 1 }.serve s.next port
  | none => { s with next := s.next + 1, beating := s.beating ++ [s.next] }

/-- The producer of this kind with this number. -/
def MadeProducer.of (id : Nat) : Option Int → MadeProducer
  | some _ => .ws id
  | none => .kafka id

theorem resolve_one (s : Made) (env : MakeEnv) (resumer : Bool) (bp : ProducerParams) :
    (∃ k, MakesKind env resumer bp k ∧ s.resolveProducer env resumer bp = (s.after k, .ok (.of s.next k))) ∨
    ((∀ k, ¬ MakesKind env resumer bp k) ∧ ∃ e, s.resolveProducer env resumer bp = (s, .error e)) := by
  have kf := C152_protocol kafka_nocolon bp.url
  have wf := C152_protocol ws_nocolon bp.url
  have wf' := C152_protocol wss_nocolon bp.url
  have d1 : str "kafka" ≠ str "ws" := by decide
  have d2 : str "kafka" ≠ str "wss" := by decide
  unfold Made.resolveProducer
  by_cases h1 : protocolOf bp.url = str "ws" ∨ protocolOf bp.url = str "wss"
  · rw [if_pos h1]
    have nk : ¬ KafkaUp env bp := by
      rintro ⟨b, hb, hs, _⟩
      have := kf.mpr ⟨b, hb, hs⟩
      rcases h1 with h1 | h1 <;> rw [this] at h1
      · exact d1 h1
      · exact d2 h1
    have hsp : Speaks (trimPrefix (str "cardinal://") bp.url) (str "ws") ∨ Speaks (trimPrefix (str "cardinal://") bp.url) (str "wss") := by
      rcases h1 with h1 | h1
      · obtain ⟨b, hb, hs⟩ := wf.mp h1; exact .inl (hb.eq ▸ hs)
      · obtain ⟨b, hb, hs⟩ := wf'.mp h1; exact .inr (hb.eq ▸ hs)
    unfold Made.newWebsocketProducer
    cases hr : resumer with
    | false =>
      refine .inr ⟨fun k hk => ?_, .other 10, by simp⟩
      cases hk with
      | ws h => cases h
      | kafka h => exact nk h
    | true =>
      simp only [Bool.not_true, Bool.false_eq_true, if_false]
      cases hp : env.parse (trimPrefix (str "cardinal://") bp.url) with
      | error e =>
        refine .inr ⟨fun k hk => ?_, _, rfl⟩
        cases hk with
        | ws _ h => obtain ⟨b, sc, dg, hb, _, he, _⟩ := h; rw [hb.eq, hp] at he; cases he
        | kafka h => exact nk h
      | ok v =>
        obtain ⟨sc, dg⟩ := v
        by_cases hsc : sc = str "wss" ∨ sc = str "ws"
        · simp only [if_pos hsc]
          cases ha : atoi dg with
          | none =>
            refine .inr ⟨fun k hk => ?_, _, rfl⟩
            cases hk with
            | ws _ h => obtain ⟨b, sc', dg', hb, _, he, _, h'⟩ := h; rw [hb.eq, hp] at he; cases he; rw [ha] at h'; cases h'
            | kafka h => exact nk h
          | some port =>
            exact .inl ⟨some port, .ws rfl ⟨_, sc, dg, trimPrefix_bare _, hsp, hp, hsc.symm, ha⟩, rfl⟩
        · simp only [if_neg hsc]
          refine .inr ⟨fun k hk => ?_, _, rfl⟩
          cases hk with
          | ws _ h => obtain ⟨b, sc', dg', hb, _, he, h', _⟩ := h; rw [hb.eq, hp] at he; cases he; exact hsc h'.symm
          | kafka h => exact nk h
  · rw [if_neg h1]
    have nw : ∀ port, ¬ WsAt env bp port := by
      rintro port ⟨b, sc, dg, hb, hs | hs, _⟩
      · exact h1 (.inl (wf.mpr ⟨b, hb, hs⟩))
      · exact h1 (.inr (wf'.mpr ⟨b, hb, hs⟩))
    by_cases h2 : protocolOf bp.url = str "kafka"
    · rw [if_pos h2]
      unfold Made.newKafkaProducer
      obtain ⟨b, hb, hs⟩ := kf.mp h2
      cases hk : env.kafka (trimPrefix (str "cardinal://") bp.url) bp.defaultTopic bp.schema with
      | none => exact .inl ⟨none, .kafka ⟨b, hb, hs, by rw [hb.eq]; exact hk⟩, rfl⟩
      | some e =>
        refine .inr ⟨fun k h => ?_, _, rfl⟩
        cases h with
        | ws _ h => exact nw _ h
        | kafka h => obtain ⟨b', hb', _, h⟩ := h; rw [hb'.eq, hk] at h; cases h
    · rw [if_neg h2]
      refine .inr ⟨fun k h => ?_, _, rfl⟩
      cases h with
      | ws _ h => exact nw _ h
      | kafka h => obtain ⟨b, hb, hs, _⟩ := h; exact h2 (kf.mpr ⟨b, hb, hs⟩)

/-! ## All of them -/

/-- The state after producers of these kinds have been made. -/
def Made.afters (s : Made) (ks : List (Option Int)) : Made := ks.foldl Made.after s

/-- The producers of these kinds, numbered from `id`. -/
def MadeProducer.ofs (id : Nat) : List (Option Int) → List MadeProducer
  | [] => []
  | k :: ks => .of id k :: MadeProducer.ofs (id + 1) ks

theorem made_serve_next (s : Made) (id : Nat) (port : Int) : (s.serve id port).next = s.next ∧ (s.serve id port).beating = s.beating := by
  unfold Made.serve; split <;> exact ⟨rfl, rfl⟩

theorem made_after_next (s : Made) (k : Option Int) : (s.after k).next = s.next + 1 := by
  cases k with
  | none => rfl
  | some p => exact (made_serve_next _ _ _).1

theorem made_afters_next (s : Made) (ks : List (Option Int)) : (s.afters ks).next = s.next + ks.length := by
  induction ks generalizing s with
  | nil => rfl
  | cons k ks ih =>
    show ((s.after k).afters ks).next = _
    rw [ih, made_after_next, List.length_cons]; omega

theorem resolve_all (env : MakeEnv) (resumer : Bool) (bps : List ProducerParams) (s : Made) (ps : List MadeProducer) :
    (∃ ks, Each (MakesKind env resumer) bps ks ∧ Made.resolveProducers env resumer bps s ps = (s.afters ks, .ok (ps ++ MadeProducer.ofs s.next ks))) ∨
    (∃ pre bp post ks e, bps = pre ++ bp :: post ∧ Each (MakesKind env resumer) pre ks ∧ (∀ k, ¬ MakesKind env resumer bp k) ∧
      Made.resolveProducers env resumer bps s ps = (s.afters ks, .error e)) := by
  induction bps generalizing s ps with
  | nil => exact .inl ⟨[], .nil, by simp [Made.resolveProducers, Made.afters, MadeProducer.ofs]⟩
  | cons bp bps ih =>
    rcases resolve_one s env resumer bp with ⟨k, hk, e⟩ | ⟨hk, err, e⟩
    · rcases ih (s.after k) (ps ++ [.of s.next k]) with ⟨ks, hks, e'⟩ | ⟨pre, b, post, ks, err, rfl, hks, hb, e'⟩
      · refine .inl ⟨k :: ks, .cons hk hks, ?_⟩
        rw [Made.resolveProducers, e]
        simp only [e', made_after_next, List.append_assoc]
        rfl
      · refine .inr ⟨bp :: pre, b, post, k :: ks, err, rfl, .cons hk hks, hb, ?_⟩
        rw [Made.resolveProducers, e]
        simp only [e']
        rfl
    · refine .inr ⟨[], bp, bps, [], err, rfl, .nil, hk, ?_⟩
      rw [Made.resolveProducers, e]
      rfl

theorem Spec.Each.all {A B : Type} {R : A → B → Prop} {as : List A} {bs : List B} (h : Each R as bs) : ∀ a ∈ as, ∃ b, R a b := by
  induction h with
  | nil => intro a ha; cases ha
  | cons hr _ ih =>
    intro a ha
    rcases List.mem_cons.mp ha with rfl | ha
    · exact ⟨_, hr⟩
    · exact ih a ha

/-- **C152**: a producer of several transports is made exactly when one can be made for each. -/
theorem C152_made (s : Made) (env : MakeEnv) (resumer : Bool) (bps : List ProducerParams) :
    (∃ s' ps, s.resolveMuxProducer env resumer bps = (s', .ok ps)) ↔ ∀ bp ∈ bps, ∃ k, MakesKind env resumer bp k := by
  constructor
  · rintro ⟨s', ps, e⟩
    rcases resolve_all env resumer bps s [] with ⟨ks, hks, _⟩ | ⟨pre, b, post, ks, err, rfl, _, _, e'⟩
    · exact hks.all
    · rw [Made.resolveMuxProducer, e'] at e; cases e
  · intro h
    rcases resolve_all env resumer bps s [] with ⟨ks, _, e⟩ | ⟨pre, b, post, ks, err, rfl, _, hb, _⟩
    · exact ⟨_, _, e⟩
    · obtain ⟨k, hk⟩ := h b (by simp)
      exact absurd hk (hb k)

theorem Spec.Each.get {A B : Type} {R : A → B → Prop} {as : List A} {bs : List B} (h : Each R as bs) {i : Nat} {a : A} (ha : as[i]? = some a) :
    ∃ b, bs[i]? = some b ∧ R a b := by
  induction h generalizing i with
  | nil => simp at ha
  | cons hr _ ih =>
    cases i with
    | zero => simp at ha; exact ⟨_, rfl, ha ▸ hr⟩
    | succ i => exact ih (by simpa using ha)

theorem Spec.Each.len {A B : Type} {R : A → B → Prop} {as : List A} {bs : List B} (h : Each R as bs) : as.length = bs.length := by
  induction h with
  | nil => rfl
  | cons _ _ ih => simp [ih]

theorem MakesKind_ws {env : MakeEnv} {resumer : Bool} {bp : ProducerParams} {k : Option Int} {q : Int} (h : MakesKind env resumer bp k) (hq : WsAt env bp q) : k = some q := by
  obtain ⟨b, sc, dg, hb, hs, he, hsc, ha⟩ := hq
  cases h with
  | ws _ h =>
    obtain ⟨b', sc', dg', hb', _, he', _, ha'⟩ := h
    rw [hb.eq] at he; rw [hb'.eq] at he'; rw [he] at he'; cases he'
    rw [ha] at ha'; exact ha'.symm
  | kafka h =>
    obtain ⟨b', hb', hs', _⟩ := h
    have e := (C152_protocol kafka_nocolon bp.url).mpr ⟨b', hb', hs'⟩
    rcases hs with hs | hs
    · rw [(C152_protocol ws_nocolon bp.url).mpr ⟨b, hb, hs⟩] at e; exact absurd e (by decide)
    · rw [(C152_protocol wss_nocolon bp.url).mpr ⟨b, hb, hs⟩] at e; exact absurd e (by decide)

theorem MakesKind_kafka {env : MakeEnv} {resumer : Bool} {bp : ProducerParams} {k : Option Int} (h : MakesKind env resumer bp k) (hq : KafkaUp env bp) : k = none := by
  cases k with
  | none => rfl
  | some q =>
    cases h with
    | ws _ h => exact MakesKind_ws (resumer := true) (.kafka hq) h ▸ rfl

theorem ofs_get (id : Nat) (ks : List (Option Int)) (i : Nat) : (MadeProducer.ofs id ks)[i]? = ks[i]?.map (MadeProducer.of (id + i)) := by
  induction ks generalizing id i with
  | nil => rfl
  | cons k ks ih =>
    cases i with
    | zero => rfl
    | succ i =>
      show (MadeProducer.ofs (id + 1) ks)[i]? = _
      rw [ih, show id + 1 + i = id + (i + 1) by omega]; rfl

theorem ofs_mem {id : Nat} {ks : List (Option Int)} {p : MadeProducer} (h : p ∈ MadeProducer.ofs id ks) : id ≤ p.id ∧ p.id < id + ks.length := by
  induction ks generalizing id with
  | nil => cases h
  | cons k ks ih =>
    rcases List.mem_cons.mp h with rfl | h
    · have : (MadeProducer.of id k).id = id := by cases k <;> rfl
      rw [this, List.length_cons]; omega
    · have := ih h
      rw [List.length_cons]; omega

theorem made_after_serving (s : Made) (k : Option Int) (q : Int) :
    (s.after k).serving.get? q = match s.serving.get? q with | some x => some x | none => if k = some q then some s.next else none := by
  cases k with
  | none => simp only [Made.after]; cases s.serving.get? q <;> rfl
  | some p =>
    simp only [Made.after, Made.serve]
    cases hp : s.serving.get? p with
    | some x =>
      simp only
      cases hq : s.serving.get? q with
      | some y => rfl
      | none =>
        have : p ≠ q := fun e => by rw [e, hq] at hp; cases hp
        simp [this]
    | none =>
      simp only
      by_cases e : p = q
      · subst e; simp [hp]
      · rw [GMap.get?_insert_ne _ _ e]
        cases s.serving.get? q <;> simp [e]

theorem made_afters_keep {s : Made} {q : Int} {x : Nat} (ks : List (Option Int)) (h : s.serving.get? q = some x) : (s.afters ks).serving.get? q = some x := by
  induction ks generalizing s with
  | nil => exact h
  | cons k ks ih => exact ih (by rw [made_after_serving, h])

theorem made_afters_get {s : Made} {q : Int} {ks : List (Option Int)} {i : Nat} (hi : ks[i]? = some (some q)) (hj : ∀ j, j < i → ks[j]? ≠ some (some q)) (h : s.serving.get? q = none) :
    (s.afters ks).serving.get? q = some (s.next + i) := by
  induction ks generalizing s i with
  | nil => simp at hi
  | cons k ks ih =>
    cases i with
    | zero =>
      simp at hi
      exact made_afters_keep ks (by rw [made_after_serving, h]; simp [hi])
    | succ i =>
      have hk : k ≠ some q := fun e => hj 0 (by omega) (by simp [e])
      show ((s.after k).afters ks).serving.get? q = _
      rw [ih (by simpa using hi) (fun j hlt => by have := hj (j + 1) (by omega); simpa using this) (by rw [made_after_serving, h]; simp [hk]), made_after_next]
      congr 1; omega

theorem made_afters_beating {s : Made} (ks : List (Option Int)) (x : Nat) : x ∈ (s.afters ks).beating ↔ x ∈ s.beating ∨ .kafka x ∈ MadeProducer.ofs s.next ks := by
  induction ks generalizing s with
  | nil => simp [Made.afters, MadeProducer.ofs]
  | cons k ks ih =>
    show x ∈ ((s.after k).afters ks).beating ↔ _
    rw [ih, made_after_next]
    cases k with
    | none => simp [Made.after, MadeProducer.ofs, MadeProducer.of, or_assoc]
    | some p => simp [Made.after, (made_serve_next _ _ _).2, MadeProducer.ofs, MadeProducer.of]

section
variable {s s' : Made} {env : MakeEnv} {resumer : Bool} {bps : List ProducerParams} {ps : List MadeProducer} {e : Err}

/-- **C152**: it has one new producer for each URL, in order, of the kind the URL asks for. -/
theorem C152_producers (h : s.resolveMuxProducer env resumer bps = (s', .ok ps)) :
    ps.length = bps.length ∧ ∀ (i : Nat) bp, bps[i]? = some bp →
      (KafkaUp env bp ∧ ps[i]? = some (MadeProducer.kafka (s.next + i))) ∨ (resumer = true ∧ (∃ port, WsAt env bp port) ∧ ps[i]? = some (MadeProducer.ws (s.next + i))) := by
  rcases resolve_all env resumer bps s [] with ⟨ks, hks, e'⟩ | ⟨pre, b, post, ks, err, rfl, _, _, e'⟩
  · rw [Made.resolveMuxProducer, e'] at h
    cases h
    refine ⟨?_, fun i bp hi => ?_⟩
    · have : ∀ (id : Nat) (ks : List (Option Int)), (MadeProducer.ofs id ks).length = ks.length := by
        intro id ks
        induction ks generalizing id with
        | nil => rfl
        | cons k ks ih => simp [MadeProducer.ofs, ih]
      simp [this, hks.len]
    · obtain ⟨k, hk, hm⟩ := hks.get hi
      rw [List.nil_append, ofs_get, hk]
      cases hm with
      | ws hr hw => exact .inr ⟨hr, ⟨_, hw⟩, rfl⟩
      | kafka hu => exact .inl ⟨hu, rfl⟩
  · rw [Made.resolveMuxProducer, e'] at h; cases h

/-- **C152**: exactly its Kafka producers have begun to send heartbeats. -/
theorem C152_beats (h : s.resolveMuxProducer env resumer bps = (s', .ok ps)) (x : Nat) : x ∈ s'.beating ↔ x ∈ s.beating ∨ .kafka x ∈ ps := by
  rcases resolve_all env resumer bps s [] with ⟨ks, _, e'⟩ | ⟨pre, b, post, ks, err, rfl, _, _, e'⟩
  · rw [Made.resolveMuxProducer, e'] at h
    cases h
    exact made_afters_beating ks x
  · rw [Made.resolveMuxProducer, e'] at h; cases h

/-- **C152** (for ports that are free and given once): clients that connect to the port of a websocket URL reach the producer made for it. -/
theorem C152_served_partial (h : s.resolveMuxProducer env resumer bps = (s', .ok ps)) {i : Nat} {bp : ProducerParams} {port : Int} (hi : bps[i]? = some bp) (hw : WsAt env bp port)
    (free : s.serving.get? port = none) (once : ∀ j b, bps[j]? = some b → WsAt env b port → j = i) :
    ∃ p, ps[i]? = some p ∧ s'.serving.get? port = some p.id := by
  rcases resolve_all env resumer bps s [] with ⟨ks, hks, e'⟩ | ⟨pre, b, post, ks, err, rfl, _, _, e'⟩
  · rw [Made.resolveMuxProducer, e'] at h
    cases h
    obtain ⟨k, hk, hm⟩ := hks.get hi
    have := MakesKind_ws hm hw
    subst this
    refine ⟨.ws (s.next + i), by rw [List.nil_append, ofs_get, hk]; rfl, made_afters_get hk (fun j hj hk' => ?_) free⟩
    have hlt : j < bps.length := by
      have := (List.getElem?_eq_some_iff.mp hi).1
      omega
    obtain ⟨k', hk'', hm'⟩ := hks.get (List.getElem?_eq_getElem hlt)
    rw [hk'] at hk''
    cases hk''
    cases hm' with
    | ws _ hw' => have := once j _ (List.getElem?_eq_getElem hlt) hw'; omega
  · rw [Made.resolveMuxProducer, e'] at h; cases h

/-- **C152**: if it fails, there is a first URL for which no producer can be made, and the producers for the URLs before it have been made: the Kafka producers among them send
heartbeats, and the ports of the websocket producers among them are taken. -/
theorem C152_failed (h : s.resolveMuxProducer env resumer bps = (s', .error e)) :
    ∃ pre bp post, bps = pre ++ bp :: post ∧ (∀ b ∈ pre, ∃ k, MakesKind env resumer b k) ∧ (∀ k, ¬ MakesKind env resumer bp k) ∧ s'.next = s.next + pre.length ∧
      (∀ x, x ∈ s'.beating ↔ x ∈ s.beating ∨ ∃ i b, pre[i]? = some b ∧ KafkaUp env b ∧ x = s.next + i) ∧
      (∀ q, s'.serving.get? q ≠ none ↔ s.serving.get? q ≠ none ∨ ∃ b ∈ pre, WsAt env b q) := by
  rcases resolve_all env resumer bps s [] with ⟨ks, hks, e'⟩ | ⟨pre, b, post, ks, err, rfl, hks, hb, e'⟩
  · rw [Made.resolveMuxProducer, e'] at h; cases h
  · rw [Made.resolveMuxProducer, e'] at h
    cases h
    refine ⟨pre, b, post, rfl, hks.all, hb, by rw [made_afters_next, hks.len], fun x => ?_, fun q => ?_⟩
    · rw [made_afters_beating]
      refine or_congr_right ?_
      constructor
      · intro hx
        obtain ⟨i, hi⟩ := List.getElem?_of_mem hx
        rw [ofs_get] at hi
        cases hk : ks[i]? with
        | none => rw [hk] at hi; cases hi
        | some k =>
          rw [hk] at hi
          have hlt : i < pre.length := by rw [hks.len]; exact (List.getElem?_eq_some_iff.mp hk).1
          obtain ⟨k', hk', hm⟩ := hks.get (List.getElem?_eq_getElem hlt)
          rw [hk] at hk'; cases hk'
          cases hm with
          | ws => cases hi
          | kafka hu => cases hi; exact ⟨i, _, List.getElem?_eq_getElem hlt, hu, rfl⟩
      · rintro ⟨i, b', hi, hu, rfl⟩
        obtain ⟨k, hk, hm⟩ := hks.get hi
        have := MakesKind_kafka hm hu
        subst this
        exact List.mem_of_getElem? (i := i) (by rw [ofs_get, hk]; rfl)
    · have key : ∀ (pre : List ProducerParams) (ks : List (Option Int)) (s : Made), Each (MakesKind env resumer) pre ks →
          ((s.afters ks).serving.get? q ≠ none ↔ s.serving.get? q ≠ none ∨ ∃ b ∈ pre, WsAt env b q) := by
        intro pre ks s hks
        induction hks generalizing s with
        | nil => simp [Made.afters]
        | @cons b k pre ks hm _ ih =>
          show ((s.after k).afters ks).serving.get? q ≠ none ↔ _
          rw [ih, made_after_serving]
          have hb : k = some q ↔ WsAt env b q := by
            constructor
            · rintro rfl; cases hm with | ws _ h => exact h
            · exact MakesKind_ws hm
          cases s.serving.get? q with
          | some x => simp
          | none => simp [hb]
      exact key pre ks s hks

/-- **C152** (if the first URL is the one that fails, or there is a single one): a call that fails leaves nothing behind. -/
theorem C152_clean_partial {bp : ProducerParams} (hb : ∀ k, ¬ MakesKind env resumer bp k) : ∃ e, s.resolveMuxProducer env resumer (bp :: bps) = (s, .error e) := by
  rcases resolve_one s env resumer bp with ⟨k, hk, _⟩ | ⟨_, err, e'⟩
  · exact absurd hk (hb k)
  · exact ⟨err, by rw [Made.resolveMuxProducer, Made.resolveProducers, e']⟩

/-- **C152**: refuted: after a call that failed because of a later URL, a call that succeeds makes a websocket producer that nobody reaches: the port stays with the producer of the first call,
which nobody has. -/
theorem C152_again_refuted {env' : MakeEnv} {s'' : Made} (h : s.resolveMuxProducer env resumer bps = (s', .error e)) (h' : s'.resolveMuxProducer env' resumer bps = (s'', .ok ps))
    {pre post : List ProducerParams} {bp bp' : ProducerParams} {port : Int} (hbps : bps = pre ++ bp :: post) (hpre : ∀ b ∈ pre, ∃ k, MakesKind env resumer b k)
    (hmem : bp' ∈ pre) (hw : WsAt env bp' port) (old : ∀ x, s.serving.get? port = some x → x < s.next) :
    ∃ x, s''.serving.get? port = some x ∧ ∀ p ∈ ps, p.id ≠ x := by
  have hs' : ∃ x, s'.serving.get? port = some x ∧ x < s'.next := by
    rcases resolve_all env resumer bps s [] with ⟨ks, hks, e'⟩ | ⟨pre', b, post', ks, err, hbps', hks, hb, e'⟩
    · rw [Made.resolveMuxProducer, e'] at h; cases h
    · rw [Made.resolveMuxProducer, e'] at h
      cases h
      have hle : pre.length ≤ pre'.length := by
        apply Nat.le_of_not_lt
        intro hlt
        have : b ∈ pre := by
          have e1 : bps[pre'.length]? = some b := by rw [hbps']; simp
          rw [hbps, List.getElem?_append_left hlt] at e1
          exact List.mem_of_getElem? e1
        obtain ⟨k, hk⟩ := hpre b this
        exact hb k hk
      have hmem' : bp' ∈ pre' := by
        obtain ⟨i, hi⟩ := List.getElem?_of_mem hmem
        have hlt := (List.getElem?_eq_some_iff.mp hi).1
        have e1 : bps[i]? = some bp' := by rw [hbps, List.getElem?_append_left hlt]; exact hi
        rw [hbps', List.getElem?_append_left (by omega)] at e1
        exact List.mem_of_getElem? e1
      have key : ∀ (pre : List ProducerParams) (ks : List (Option Int)) (s : Made), Each (MakesKind env resumer) pre ks → (∀ x, s.serving.get? port = some x → x < s.next) →
          (bp' ∈ pre ∨ s.serving.get? port ≠ none) → ∃ x, (s.afters ks).serving.get? port = some x ∧ x < (s.afters ks).next := by
        intro pre ks s hks
        induction hks generalizing s with
        | nil =>
          intro ho hm
          rcases hm with hm | hm
          · cases hm
          · cases hx : s.serving.get? port with
            | none => exact absurd hx hm
            | some x => exact ⟨x, hx, ho x hx⟩
        | @cons b k pre ks hm _ ih =>
          intro ho hor
          apply ih (s.after k)
          · intro x hx
            rw [made_after_serving] at hx
            rw [made_after_next]
            cases hs : s.serving.get? port with
            | some y => rw [hs] at hx; cases hx; have := ho _ hs; omega
            | none =>
              rw [hs] at hx
              simp only at hx
              split at hx
              · cases hx; omega
              · cases hx
          · rcases hor with hor | hor
            · rcases List.mem_cons.mp hor with rfl | hor
              · right
                rw [made_after_serving, MakesKind_ws hm hw]
                cases s.serving.get? port <;> simp
              · exact .inl hor
            · right
              rw [made_after_serving]
              cases hs : s.serving.get? port with
              | none => exact absurd hs hor
              | some y => simp
      exact key pre' ks s hks old (.inl hmem')
  obtain ⟨x, hx, hlt⟩ := hs'
  rcases resolve_all env' resumer bps s' [] with ⟨ks, hks, e'⟩ | ⟨_, _, _, _, _, _, _, _, e'⟩
  · rw [Made.resolveMuxProducer, e'] at h'
    cases h'
    refine ⟨x, made_afters_keep ks hx, fun p hp => ?_⟩
    have := (ofs_mem (by simpa using hp)).1
    omega
  · rw [Made.resolveMuxProducer, e'] at h'; cases h'

end

/-! ## Example: a websocket server and a Kafka broker that is down at first -/

def exMakeEnv (up : Bool) : MakeEnv where
  parse u := if u = str "ws://0.0.0.0:8000" then .ok (str "ws", str "8000") else .error (.other 1)
  kafka _ _ _ := if up then none else some (.other 2)

def exMakeUrls : List ProducerParams := [⟨str "cardinal://ws://0.0.0.0:8000", [], .empty⟩, ⟨str "kafka://broker:9092", str "t", .empty⟩]

def exMade : Made := ⟨0, [], .empty⟩

/-- Both can be made when the broker is up. -/
example : ∃ s' ps, exMade.resolveMuxProducer (exMakeEnv true) true exMakeUrls = (s', .ok ps) ∧ ps = [.ws 0, .kafka 1] ∧ s'.serving.get? 8000 = some 0 ∧ s'.beating = [1] :=
  ⟨_, _, by rfl, by decide, by decide, by decide⟩

/-- **C152**: refuted: a call that fails leaves a server behind (and, the other way round, heartbeats of a producer that nobody has). -/
theorem C152_clean_refuted : ¬ ∀ (s s' : Made) (env : MakeEnv) (bps : List ProducerParams) (e : Err),
    s.resolveMuxProducer env true bps = (s', .error e) → s'.beating = s.beating ∧ ∀ q, s'.serving.get? q = s.serving.get? q := by
  intro h
  have := (h exMade (exMade.resolveMuxProducer (exMakeEnv false) true exMakeUrls).1 (exMakeEnv false) exMakeUrls (.other 2) rfl).2 8000
  revert this
  decide

/-- **C152**: the heartbeats of a producer that nobody has. -/
theorem C152_phantom_refuted : ¬ ∀ (s s' : Made) (env : MakeEnv) (bps : List ProducerParams) (e : Err),
    s.resolveMuxProducer env true bps = (s', .error e) → s'.beating = s.beating := by
  intro h
  have := h exMade _ (exMakeEnv true) (exMakeUrls.reverse ++ [⟨str "http://x", [], .empty⟩]) (.other 13) rfl
  revert this
  decide

/-- The hypotheses of `C152_again_refuted`. -/
example : ∃ x, ((exMade.resolveMuxProducer (exMakeEnv false) true exMakeUrls).1.resolveMuxProducer (exMakeEnv true) true exMakeUrls).1.serving.get? 8000 = some x ∧
    ∀ p ∈ [MadeProducer.ws 1, .kafka 2], p.id ≠ x := by
  have hw : WsAt (exMakeEnv false) ⟨str "cardinal://ws://0.0.0.0:8000", [], .empty⟩ 8000 :=
    ⟨str "ws://0.0.0.0:8000", str "ws", str "8000", .inl (by decide), .inl (.inr ⟨str "0.0.0.0:8000", by decide⟩), rfl, .inl rfl, by decide⟩
  exact C152_again_refuted (s := exMade) (env := exMakeEnv false) (env' := exMakeEnv true) (resumer := true) (bps := exMakeUrls) (e := .other 2) rfl rfl
    (pre := [⟨str "cardinal://ws://0.0.0.0:8000", [], .empty⟩]) (post := []) rfl (fun b hb => by rw [List.mem_singleton.mp hb]; exact ⟨some 8000, .ws rfl hw⟩)
    List.mem_cons_self hw (fun x hx => by cases hx)

end Verif
