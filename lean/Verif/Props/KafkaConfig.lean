import Verif.Model.KafkaConfig
import Verif.Proofs.Kafka
import Verif.Proofs.GMap

/-
C113: the options of a Kafka URL. C114: the topics that a Kafka producer makes.
-/

namespace Verif

/-! ## C113 -/

/-- The number `i` can be the value of a Go integer of `b` bits. -/
def Spec.FitsBits (b : Nat) (i : Int) : Prop := -(2 ^ (b - 1) : Int) ≤ i ∧ i < 2 ^ (b - 1)

/-- The option `key` of the URL is the number `i`, written in decimals. -/
def Spec.HasNumber (u : KURL) (key : String) (i : Int) : Prop := u.get (str key) = intDigits i

/-- The option is absent. -/
def Spec.NoOption (u : KURL) (key : String) : Prop := ∀ e, e ∈ u.query → e.1 ≠ str key

open Spec

theorem numberOr_of {u : KURL} {key : String} {i : Int} (h : HasNumber u key i) (hi : FitsBits 64 i) (f : Int → Int) (d : Int) :
    numberOr (u.get (str key)) f d = f i := by
  have : atoi (intDigits i) = some i := atoi_intDigits (by unfold FitsBits at hi; unfold InInt64; simp at hi; omega)
  simp only [numberOr, show u.get (str key) = intDigits i from h, this]

theorem get_absent {u : KURL} {key : String} (h : NoOption u key) : u.get (str key) = [] := by
  have : u.query.find? (fun e => e.1 = str key) = none := by
    rw [List.find?_eq_none]
    intro e he
    simpa using h e he
  simp only [KURL.get, this]

/-- **C113**, numbers: an option that is a number which the field can hold is what the configuration says, for durations in milliseconds. -/
theorem C113_numbers (dflt : KConfig) (u : KURL) :
    ∃ c, parseKafkaURL dflt (some u) = .ok (splitOn 44 u.host, c) ∧
      (∀ i, FitsBits 32 i → HasNumber u "fetch.default" i → c.fetchDefault = i) ∧
      (∀ i, FitsBits 64 (i * 1000000) → HasNumber u "max.waittime" i → c.maxWait = i * 1000000) ∧
      (∀ i, FitsBits 64 i → HasNumber u "message.send.max.retries" i → c.retries = i) ∧
      (∀ i, FitsBits 16 i → HasNumber u "request.required.acks" i → c.acks = i) ∧
      (∀ i, FitsBits 64 (i * 1000000) → HasNumber u "retry.backoff.ms" i → c.backoff = i * 1000000) ∧
      (∀ i, FitsBits 64 i → HasNumber u "net.maxopenrequests" i → c.maxOpen = i) := by
  refine ⟨_, rfl, ?_, ?_, ?_, ?_, ?_, ?_⟩ <;> intro i hi hn <;> dsimp only
  · rw [numberOr_of hn (by unfold FitsBits at *; simp at *; omega)]
    unfold FitsBits at hi; unfold Avro.wrap32; simp at hi; omega
  · rw [numberOr_of hn (by unfold FitsBits at *; simp at *; omega)]
    unfold FitsBits at hi; unfold millis Avro.wrap64; simp at hi; omega
  · rw [numberOr_of hn hi]; rfl
  · rw [numberOr_of hn (by unfold FitsBits at *; simp at *; omega)]
    unfold FitsBits at hi; unfold wrap16; simp at hi; omega
  · rw [numberOr_of hn (by unfold FitsBits at *; simp at *; omega)]
    unfold FitsBits at hi; unfold millis Avro.wrap64; simp at hi; omega
  · rw [numberOr_of hn hi]; rfl

/-- **C113**, numbers that the field cannot hold wrap around: what the configuration says fits the field and differs from the number by a multiple of 2 to the number of its bits. -/
theorem C113_wraps (dflt : KConfig) (u : KURL) :
    ∃ c, parseKafkaURL dflt (some u) = .ok (splitOn 44 u.host, c) ∧
      (∀ i, FitsBits 64 i → HasNumber u "fetch.default" i → FitsBits 32 c.fetchDefault ∧ ∃ k, c.fetchDefault = i + k * 2 ^ 32) ∧
      (∀ i, FitsBits 64 i → HasNumber u "max.waittime" i → FitsBits 64 c.maxWait ∧ ∃ k, c.maxWait = i * 1000000 + k * 2 ^ 64) ∧
      (∀ i, FitsBits 64 i → HasNumber u "request.required.acks" i → FitsBits 16 c.acks ∧ ∃ k, c.acks = i + k * 2 ^ 16) ∧
      (∀ i, FitsBits 64 i → HasNumber u "retry.backoff.ms" i → FitsBits 64 c.backoff ∧ ∃ k, c.backoff = i * 1000000 + k * 2 ^ 64) := by
  refine ⟨_, rfl, ?_, ?_, ?_, ?_⟩ <;> intro i hi hn <;> dsimp only <;> rw [numberOr_of hn hi]
  · refine ⟨by unfold FitsBits Avro.wrap32; simp; omega, -((i + 2147483648) / 4294967296), ?_⟩
    unfold Avro.wrap32; omega
  · refine ⟨by unfold FitsBits millis Avro.wrap64; simp; omega, -((i * 1000000 + 9223372036854775808) / 18446744073709551616), ?_⟩
    unfold millis Avro.wrap64; omega
  · refine ⟨by unfold FitsBits wrap16; simp; omega, -((i + 32768) / 65536), ?_⟩
    unfold wrap16; omega
  · refine ⟨by unfold FitsBits millis Avro.wrap64; simp; omega, -((i * 1000000 + 9223372036854775808) / 18446744073709551616), ?_⟩
    unfold millis Avro.wrap64; omega

/-- **C113**, words. -/
theorem C113_words (dflt : KConfig) (u : KURL) :
    ∃ c, parseKafkaURL dflt (some u) = .ok (splitOn 44 u.host, c) ∧
      (u.get (str "tls") = str "1" → c.tls = true) ∧
      (u.get (str "idempotent") = str "1" → c.idempotent = true) ∧
      (u.get (str "log") = str "1" → c.log = true) ∧
      (u.get (str "compression.codec") = str "none" ↔ c.codec = .none) ∧
      (u.get (str "compression.codec") = str "gzip" ↔ c.codec = .gzip) ∧
      (u.get (str "compression.codec") = str "lz4" ↔ c.codec = .lz4) ∧
      (u.get (str "compression.codec") = str "zstd" ↔ c.codec = .zstd) ∧
      (u.get (str "sasl.mechanism") = str "SCRAM-SHA-256" → c.mechanism = .scram256) ∧
      (u.get (str "sasl.mechanism") = str "SCRAM-SHA-512" → c.mechanism = .scram512) ∧
      (u.get (str "sasl.mechanism") = str "GSSAPI" → c.mechanism = .gssapi) ∧
      (∀ name pw, u.user = some (name, pw) → c.sasl = true ∧ c.user = name ∧ c.password = pw.getD []) := by
  have e1 : str "none" ≠ str "gzip" := by decide
  have e2 : str "lz4" ≠ str "gzip" := by decide
  have e3 : str "lz4" ≠ str "none" := by decide
  have e4 : str "zstd" ≠ str "gzip" := by decide
  have e5 : str "zstd" ≠ str "none" := by decide
  have e6 : str "zstd" ≠ str "lz4" := by decide
  have e7 : str "SCRAM-SHA-512" ≠ str "SCRAM-SHA-256" := by decide
  have e8 : str "GSSAPI" ≠ str "SCRAM-SHA-256" := by decide
  have e9 : str "GSSAPI" ≠ str "SCRAM-SHA-512" := by decide
  refine ⟨_, rfl, ?_, ?_, ?_, ?_, ?_, ?_, ?_, ?_, ?_, ?_, ?_⟩ <;> dsimp only
  · intro h; rw [if_pos h]
  · intro h; rw [if_pos h]
  · intro h; rw [if_pos h]
  · unfold codecOf; constructor
    · intro h; rw [h, if_neg e1, if_pos rfl]
    · intro h; repeat' split at h
      all_goals first | assumption | cases h
  · unfold codecOf; constructor
    · intro h; rw [h, if_pos rfl]
    · intro h; repeat' split at h
      all_goals first | assumption | cases h
  · unfold codecOf; constructor
    · intro h; rw [h, if_neg e2, if_neg e3, if_pos rfl]
    · intro h; repeat' split at h
      all_goals first | assumption | cases h
  · unfold codecOf; constructor
    · intro h; rw [h, if_neg e4, if_neg e5, if_neg e6, if_pos rfl]
    · intro h; repeat' split at h
      all_goals first | assumption | cases h
  · intro h; rw [h]; unfold mechanismOf; rw [if_pos rfl]
  · intro h; rw [h]; unfold mechanismOf; rw [if_neg e7, if_pos rfl]
  · intro h; rw [h]; unfold mechanismOf; rw [if_neg e8, if_neg e9, if_pos rfl]
  · intro name pw h; rw [h]; exact ⟨rfl, rfl, rfl⟩

/-- **C113**, defaults: an option that is absent leaves what Sarama sets, but for the compression, the retries and the acknowledgements, which are snappy, 100 and all. -/
theorem C113_defaults (dflt : KConfig) (u : KURL) :
    ∃ c, parseKafkaURL dflt (some u) = .ok (splitOn 44 u.host, c) ∧
      (NoOption u "tls" → c.tls = dflt.tls) ∧
      (NoOption u "fetch.default" → c.fetchDefault = dflt.fetchDefault) ∧
      (NoOption u "max.waittime" → c.maxWait = dflt.maxWait) ∧
      (NoOption u "compression.codec" → c.codec = .snappy) ∧
      (NoOption u "message.send.max.retries" → c.retries = 100) ∧
      (NoOption u "request.required.acks" → c.acks = -1) ∧
      (NoOption u "retry.backoff.ms" → c.backoff = dflt.backoff) ∧
      (NoOption u "net.maxopenrequests" → c.maxOpen = dflt.maxOpen) ∧
      (NoOption u "idempotent" → c.idempotent = dflt.idempotent) ∧
      (NoOption u "log" → c.log = dflt.log) ∧
      (NoOption u "sasl.mechanism" → c.mechanism = dflt.mechanism) ∧
      (u.user = none → c.sasl = dflt.sasl ∧ c.user = dflt.user ∧ c.password = dflt.password) := by
  have hn : atoi [] = none := rfl
  refine ⟨_, rfl, ?_, ?_, ?_, ?_, ?_, ?_, ?_, ?_, ?_, ?_, ?_, ?_⟩ <;> intro h <;> dsimp only
  · rw [get_absent h]; rfl
  · rw [get_absent h]; rfl
  · rw [get_absent h]; rfl
  · rw [get_absent h]; rfl
  · rw [get_absent h]; rfl
  · rw [get_absent h]; rfl
  · rw [get_absent h]; rfl
  · rw [get_absent h]; rfl
  · rw [get_absent h]; rfl
  · rw [get_absent h]; rfl
  · rw [get_absent h]; rfl
  · rw [h]; exact ⟨rfl, rfl, rfl⟩

/-- **C113**, each option by itself: URLs that agree in one option agree in what it sets. -/
theorem C113_alone (dflt : KConfig) (u v : KURL) :
    ∃ c d, parseKafkaURL dflt (some u) = .ok (splitOn 44 u.host, c) ∧ parseKafkaURL dflt (some v) = .ok (splitOn 44 v.host, d) ∧
      (u.get (str "tls") = v.get (str "tls") → c.tls = d.tls) ∧
      (u.get (str "fetch.default") = v.get (str "fetch.default") → c.fetchDefault = d.fetchDefault) ∧
      (u.get (str "max.waittime") = v.get (str "max.waittime") → c.maxWait = d.maxWait) ∧
      (u.get (str "compression.codec") = v.get (str "compression.codec") → c.codec = d.codec) ∧
      (u.get (str "message.send.max.retries") = v.get (str "message.send.max.retries") → c.retries = d.retries) ∧
      (u.get (str "request.required.acks") = v.get (str "request.required.acks") → c.acks = d.acks) ∧
      (u.get (str "retry.backoff.ms") = v.get (str "retry.backoff.ms") → c.backoff = d.backoff) ∧
      (u.get (str "net.maxopenrequests") = v.get (str "net.maxopenrequests") → c.maxOpen = d.maxOpen) ∧
      (u.get (str "idempotent") = v.get (str "idempotent") → c.idempotent = d.idempotent) ∧
      (u.get (str "log") = v.get (str "log") → c.log = d.log) ∧
      (u.get (str "sasl.mechanism") = v.get (str "sasl.mechanism") → c.mechanism = d.mechanism) ∧
      (u.user = v.user → c.sasl = d.sasl ∧ c.user = d.user ∧ c.password = d.password) := by
  refine ⟨_, _, rfl, rfl, ?_, ?_, ?_, ?_, ?_, ?_, ?_, ?_, ?_, ?_, ?_, ?_⟩ <;> intro h <;> dsimp only <;> rw [h]
  exact ⟨rfl, rfl, rfl⟩

/-- **C113 fails** for numbers that the field cannot hold: `fetch.default=4294967297` is taken as 1. -/
theorem C113_refuted (dflt : KConfig) :
    ∃ u c, HasNumber u "fetch.default" 4294967297 ∧ parseKafkaURL dflt (some u) = .ok (splitOn 44 u.host, c) ∧ c.fetchDefault = 1 := by
  refine ⟨⟨str "broker", none, [(str "fetch.default", intDigits 4294967297)]⟩, _, ?_, rfl, ?_⟩
  · simp [HasNumber, KURL.get]
  · have : HasNumber ⟨str "broker", none, [(str "fetch.default", intDigits 4294967297)]⟩ "fetch.default" 4294967297 := by simp [HasNumber, KURL.get]
    dsimp only
    rw [numberOr_of this (by unfold FitsBits; simp)]
    rfl

/-- **C113 fails** for URLs that do not parse: `ParseKafkaURL` panics. -/
theorem C113_refuted_malformed (dflt : KConfig) : parseKafkaURL dflt none = .error .panic := rfl

/-- A URL that meets the hypotheses of the theorems. -/
def exKURL : KURL := ⟨str "a:9092,b:9092", some (str "me", some (str "pw")),
  [(str "fetch.default", str "1048576"), (str "compression.codec", str "zstd"), (str "tls", str "1"), (str "request.required.acks", str "-1")]⟩

example : exKURL.get (str "fetch.default") = str "1048576" := by decide
example : HasNumber exKURL "request.required.acks" (-1) := by
  show exKURL.get (str "request.required.acks") = intDigits (-1)
  decide +kernel
example : NoOption exKURL "log" := by
  intro e he
  simp only [exKURL, List.mem_cons, List.not_mem_nil, or_false] at he
  rcases he with rfl | rfl | rfl | rfl <;> decide

/-! ## C114 -/

/-- The topic can be used. -/
def Spec.TopicExists (c : KCluster) (topic : GoStr) : Prop := ∃ t, c.get? topic = some t ∧ t.partitions ≠ 0

/-- A call of `CreateTopicIfDoesNotExist` changes the cluster only by making the topic, when it returns `nil`, it was not there and it can be made. -/
theorem createTopic_cases (brokers : Nat) (topic : GoStr) (num : Int) (entries : Option (GMap GoStr GoStr)) (a : KAnswers) (c : KCluster) :
    createTopic brokers topic num entries a c = (c, false) ∨
    (createTopic brokers topic num entries a c = (c, true) ∧ topic ≠ [] ∧ TopicExists c topic) ∨
    (createTopic brokers topic num entries a c = (c.insert topic (topicRequest brokers num (entries.getD .empty)), true) ∧ topic ≠ [] ∧ ¬ TopicExists c topic ∧
      (topicRequest brokers num (entries.getD .empty)).valid brokers = true) := by
  unfold createTopic
  split
  · exact .inl rfl
  next ht =>
    repeat (split; exact .inl rfl)
    split
    · next hm =>
      have hne : ¬ TopicExists c topic := by
        rintro ⟨t, ht, hp⟩
        simp [GMap.lacks, ht] at hm
        exact hp hm
      dsimp only
      split
      · exact .inl rfl
      split
      · exact .inl rfl
      · next hv =>
        refine .inr (.inr ⟨rfl, ht, hne, ?_⟩)
        simp at hv
        exact hv.2
    · next hm =>
      refine .inr (.inl ⟨rfl, ht, ?_⟩)
      cases hg : c.get? topic with
      | none => simp [GMap.lacks, hg] at hm
      | some t => simp [GMap.lacks, hg] at hm; exact ⟨t, hg, hm⟩

/-- **C114**, one call: when `CreateTopicIfDoesNotExist` returns `nil` the topic exists; topics that existed, and all others, are as they were. -/
theorem C114_one (brokers : Nat) (topic : GoStr) (num : Int) (entries : Option (GMap GoStr GoStr)) (a : KAnswers) (c : KCluster) :
    ((createTopic brokers topic num entries a c).2 = true → TopicExists (createTopic brokers topic num entries a c).1 topic) ∧
    (∀ x, TopicExists c x ∨ x ≠ topic → (createTopic brokers topic num entries a c).1.get? x = c.get? x) := by
  rcases createTopic_cases brokers topic num entries a c with h | ⟨h, _, he⟩ | ⟨h, _, hn, hv⟩
  · rw [h]; exact ⟨(fun e => by cases e), fun _ _ => rfl⟩
  · rw [h]; exact ⟨fun _ => he, fun _ _ => rfl⟩
  · rw [h]
    refine ⟨fun _ => ⟨_, GMap.get?_insert_self _ _ _, ?_⟩, fun x hx => ?_⟩
    · simp [KTopic.valid] at hv
      omega
    · rcases hx with hx | hx
      · have : x ≠ topic := fun e => hn (e ▸ hx)
        exact GMap.get?_insert_ne _ _ (Ne.symm this)
      · exact GMap.get?_insert_ne _ _ (Ne.symm hx)

/-- **C114**, what is asked for: with 1 to 32767 brokers a new topic has two partitions for each broker unless their number is given, is held by all brokers but at most three,
takes messages of up to 10000024 bytes, and has the other entries it was given. -/
theorem C114_request {brokers : Nat} (h1 : 1 ≤ brokers) (h2 : brokers ≤ 32767) (num : Int) (entries : GMap GoStr GoStr) :
    (topicRequest brokers num entries).partitions = (if num ≤ 0 then 2 * (brokers : Int) else num) ∧
    (topicRequest brokers num entries).replication = min 3 (brokers : Int) ∧
    (topicRequest brokers num entries).config.get? (str "max.message.bytes") = some (str "10000024") ∧
    (∀ k, k ≠ str "max.message.bytes" → (topicRequest brokers num entries).config.get? k = entries.get? k) ∧
    (topicRequest brokers num entries).valid brokers = true := by
  have w16 : wrap16 brokers = brokers := by unfold wrap16; omega
  have w32 : Avro.wrap32 (Avro.wrap32 brokers * 2) = 2 * (brokers : Int) := by unfold Avro.wrap32; omega
  have hp : (topicRequest brokers num entries).partitions = (if num ≤ 0 then 2 * (brokers : Int) else num) := by simp only [topicRequest, w32]
  have hr : (topicRequest brokers num entries).replication = min 3 (brokers : Int) := by simp only [topicRequest, w16]; split <;> omega
  refine ⟨hp, hr, GMap.get?_insert_self _ _ _, fun k hk => GMap.get?_insert_ne _ _ (Ne.symm hk), ?_⟩
  simp only [KTopic.valid, hp, hr, Bool.and_eq_true, decide_eq_true_eq]
  split <;> omega

theorem createTopics_keep (brokers : Nat) (ts : List (GoStr × KAnswers)) (c : KCluster) (x : GoStr) (hx : TopicExists c x ∨ x ∉ ts.map Prod.fst) :
    (createTopics brokers ts c).1.get? x = c.get? x := by
  induction ts generalizing c with
  | nil => rfl
  | cons e ts ih =>
    obtain ⟨topic, a⟩ := e
    have hone := (C114_one brokers topic (-1) none a c).2 x (by
      rcases hx with h | h
      · exact .inl h
      · exact .inr (fun e => h (by simp [e])))
    simp only [createTopics]
    split
    · next c' hc => rw [hc] at hone; exact hone
    · next c' hc =>
      rw [hc] at hone
      rw [ih c' ?_, hone]
      rcases hx with ⟨t, ht, hp⟩ | h
      · exact .inl ⟨t, by rw [hone]; exact ht, hp⟩
      · exact .inr (fun e => h (by simp only [List.map_cons]; exact List.mem_cons_of_mem _ e))

/-- **C114**: the limit that a new topic is given is the one the producer is configured with, in decimal digits. -/
theorem C114_limit (brokers : Nat) (num : Int) (entries : GMap GoStr GoStr) :
    ∃ v, (topicRequest brokers num entries).config.get? (str "max.message.bytes") = some v ∧ atoi v = some (producerMaxBytes : Int) :=
  ⟨_, GMap.get?_insert_self .., by decide⟩

/-- **C114**, a producer that was made: its default topic and all topics of its schema exist, whatever the order in which they are gone through. -/
theorem C114_all (brokers : Nat) (defaultTopic : GoStr) (schema : GMap GoStr GoStr) (o : MapOrder) (ans : List KAnswers)
    (hlen : ans.length = (producerTopics defaultTopic schema o).length) (c : KCluster)
    (hok : (createTopics brokers ((producerTopics defaultTopic schema o).zip ans) c).2 = true) :
    TopicExists (createTopics brokers ((producerTopics defaultTopic schema o).zip ans) c).1 defaultTopic ∧
    ∀ k v, schema.get? k = some v → TopicExists (createTopics brokers ((producerTopics defaultTopic schema o).zip ans) c).1 v := by
  have key : ∀ (ts : List (GoStr × KAnswers)) (c : KCluster), (createTopics brokers ts c).2 = true → ∀ x, x ∈ ts.map Prod.fst → TopicExists (createTopics brokers ts c).1 x := by
    intro ts
    induction ts with
    | nil => intro c _ x hx; cases hx
    | cons e ts ih =>
      obtain ⟨topic, a⟩ := e
      intro c hok x hx
      have hone := C114_one brokers topic (-1) none a c
      simp only [createTopics] at hok ⊢
      split at hok
      · cases hok
      · next c' hc =>
        rw [hc] at hone
        simp only [List.map_cons, List.mem_cons] at hx
        rcases hx with rfl | hx
        · obtain ⟨t, ht, hp⟩ := hone.1 rfl
          exact ⟨t, by rw [createTopics_keep brokers ts c' x (.inl ⟨t, ht, hp⟩)]; exact ht, hp⟩
        · exact ih c' hok x hx
  have hfst : ((producerTopics defaultTopic schema o).zip ans).map Prod.fst = producerTopics defaultTopic schema o := by
    rw [List.map_fst_zip]; omega
  refine ⟨key _ c hok _ (by rw [hfst]; simp [producerTopics]), fun k v hv => key _ c hok _ ?_⟩
  rw [hfst]
  have hmem : (k, v) ∈ schema.entries := (GMap.get?_eq_some_iff _).mp hv
  simp only [producerTopics, List.mem_cons, List.mem_map]
  exact .inr ⟨(k, v), (o.perm 0 _).mem_iff.mpr hmem, rfl⟩

/-- **C114**, nothing else: whether the producer is made or not, topics that existed are as they were, and so are all that are not topics of the producer. -/
theorem C114_nothing_else (brokers : Nat) (defaultTopic : GoStr) (schema : GMap GoStr GoStr) (o : MapOrder) (ans : List KAnswers) (c : KCluster) (x : GoStr)
    (hx : TopicExists c x ∨ (x ≠ defaultTopic ∧ ∀ k, schema.get? k ≠ some x)) :
    (createTopics brokers ((producerTopics defaultTopic schema o).zip ans) c).1.get? x = c.get? x := by
  apply createTopics_keep
  rcases hx with h | ⟨h1, h2⟩
  · exact .inl h
  · refine .inr (fun hm => ?_)
    obtain ⟨e, he, rfl⟩ := List.mem_map.mp hm
    have := List.of_mem_zip he |>.1
    simp only [producerTopics, List.mem_cons, List.mem_map] at this
    rcases this with e1 | ⟨⟨k, v⟩, hkv, e1⟩
    · exact h1 e1
    · exact h2 k (by rw [← e1]; exact (GMap.get?_eq_some_iff _).mpr ((o.perm 0 _).mem_iff.mp hkv))

/-- **C114**, it succeeds: with 1 to 32767 brokers and named topics the topics are made when the cluster does its part. -/
theorem C114_succeeds {brokers : Nat} (h1 : 1 ≤ brokers) (h2 : brokers ≤ 32767) (ts : List GoStr) (hts : ∀ t, t ∈ ts → t ≠ []) (c : KCluster) :
    (createTopics brokers (ts.map (fun t => (t, KAnswers.good))) c).2 = true := by
  induction ts generalizing c with
  | nil => rfl
  | cons t ts ih =>
    have ht := hts t (by simp)
    have hv := (C114_request h1 h2 (-1) .empty).2.2.2.2
    have : (createTopic brokers t (-1) none .good c).2 = true := by
      unfold createTopic
      rw [if_neg ht]
      simp only [KAnswers.good, Bool.not_true, Bool.false_eq_true, if_false, Bool.true_and, Option.getD_none, hv]
      split <;> rfl
    simp only [List.map_cons, createTopics]
    split
    · next c' hc => rw [hc] at this; cases this
    · exact ih (fun x hx => hts x (List.mem_cons_of_mem _ hx)) _

/-- A case that meets the hypotheses of `C114_all`: no topics exist, and the producer makes three. -/
def exSchemaT : GMap GoStr GoStr := (GMap.empty.insert (str "c/1/b/") (str "blocks")).insert (str "state/") (str "state")

example : (createTopics 3 ((producerTopics (str "default") exSchemaT .rev).zip [.good, .good, .good]) .empty).2 = true := by decide +kernel

end Verif
