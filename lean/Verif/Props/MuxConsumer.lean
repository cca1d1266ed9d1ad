import Verif.Model.MuxConsumer
import Verif.Props.Mux
/-!
# C93 to C95: names of reorg topics; a consumer of several transports
-/
namespace Verif
open Spec

/-! ## C93 -/

/-- The value of a lower case hexadecimal digit. -/
def Spec.hexVal (c : UInt8) : Option Nat :=
  if 48 ≤ c.toNat ∧ c.toNat ≤ 57 then some (c.toNat - 48) else if 97 ≤ c.toNat ∧ c.toNat ≤ 102 then some (c.toNat - 87) else none

/-- A text in lower case hexadecimal, two digits a byte, of some bytes. -/
def Spec.Hex : GoStr → Bytes → Prop
  | [], b => b = []
  | [_], _ => False
  | x :: y :: t, b => ∃ c r hi lo, b = c :: r ∧ Spec.hexVal x = some hi ∧ Spec.hexVal y = some lo ∧ c.toNat = 16 * hi + lo ∧ Spec.Hex t r

theorem hexVal_digit : ∀ n : Nat, n < 16 → Spec.hexVal (hexDigit n) = some n := by decide

theorem hexBytes_hex (b : Bytes) : Spec.Hex (hexBytes b) b := by
  induction b with
  | nil => rfl
  | cons c b ih =>
    have e : hexBytes (c :: b) = hexDigit (c.toNat / 16) :: hexDigit (c.toNat % 16) :: hexBytes b := by simp [hexBytes]
    rw [e]
    have := c.toNat_lt
    exact ⟨c, b, c.toNat / 16, c.toNat % 16, rfl, hexVal_digit _ (by omega), hexVal_digit _ (by omega), by omega, ih⟩

theorem hex_unique {t : GoStr} {a b : Bytes} (h1 : Spec.Hex t a) (h2 : Spec.Hex t b) : a = b := by
  match t with
  | [] => exact (show a = [] from h1).trans (show b = [] from h2).symm
  | [_] => exact absurd h1 id
  | x :: y :: t =>
    obtain ⟨c, r, hi, lo, rfl, e1, e2, e3, h⟩ := h1
    obtain ⟨c', r', hi', lo', rfl, e1', e2', e3', h'⟩ := h2
    rw [e1] at e1'; rw [e2] at e2'
    cases e1'; cases e2'
    rw [hex_unique h h', UInt8.toNat_inj.mp (e3.trans e3'.symm)]

/-- **C93**: an announced reorg makes the consumer read the topic named after the default topic and the hash, in lower case hexadecimal. -/
theorem C93_topic (topic : GoStr) (wg : Nat) (rest : Bytes) :
    ∃ t, KC.dispatch false topic wg (ReorgType :: rest) = .ok (.reorgConsumer (topic ++ str "-re-" ++ t), wg) ∧ Spec.Hex t rest := by
  refine ⟨hexBytes rest, ?_, hexBytes_hex rest⟩
  have e : str "-re-" = [45, 114, 101, 45] := by decide
  simp [KC.dispatch, e]

/-- **C93**: different reorgs have different topics. -/
theorem C93_distinct {topic : GoStr} {wg wg' wg1 wg2 : Nat} {a b : Bytes} {t : GoStr}
    (ha : KC.dispatch false topic wg (ReorgType :: a) = .ok (.reorgConsumer t, wg1))
    (hb : KC.dispatch false topic wg' (ReorgType :: b) = .ok (.reorgConsumer t, wg2)) : a = b := by
  obtain ⟨ta, h1, h2⟩ := C93_topic topic wg a
  obtain ⟨tb, h3, h4⟩ := C93_topic topic wg' b
  rw [h1] at ha; rw [h3] at hb
  simp only [Except.ok.injEq, Prod.mk.injEq, Dispatch.reorgConsumer.injEq] at ha hb
  have : ta = tb := List.append_cancel_left (ha.1.trans hb.1.symm)
  subst this
  exact hex_unique h2 h4

example : KC.dispatch false (str "cardinal") 0 (ReorgType :: [1, 171]) = .ok (.reorgConsumer (str "cardinal-re-01ab"), 0) := by decide

/-! ## C94, C95 -/

/-- The elements of two lists are related one by one. -/
inductive Spec.Each {A B : Type} (R : A → B → Prop) : List A → List B → Prop
  | nil : Spec.Each R [] []
  | cons {a b as bs} : R a b → Spec.Each R as bs → Spec.Each R (a :: as) (b :: bs)

/-- Every action is done once, in order. -/
inductive Spec.Done {W : Type} : List (W → W) → W → W → Prop
  | nil {w} : Spec.Done [] w w
  | cons {c cs w w'} : Spec.Done cs (c w) w' → Spec.Done (c :: cs) w w'

/-- **C95**: `Close` (and `SetHealth`, `PurgeReplayCache`) reach every transport once, in order. -/
theorem C95_close {W : Type} (cs : List (W → W)) (w w' : W) : Spec.Done cs w w' ↔ muxEach cs w = w' := by
  constructor
  · intro h
    induction h with
    | nil => rfl
    | cons _ ih => exact ih
  · intro h
    induction cs generalizing w with
    | nil => exact h ▸ .nil
    | cons c cs ih => exact .cons (ih (c w) h)

example : muxEach [fun l => l ++ [1], fun l => l ++ [2], fun l => l ++ [3]] ([] : List Nat) = [1, 2, 3] := rfl

/-- Calls with what they answer; the last one called is the first that answers something. -/
inductive Spec.Asked {W : Type} : List (MCall W GoStr) → W → W → GoStr → Prop
  | none {w} : Spec.Asked [] w w (str "no consumers to report")
  | here {c cs w w' v} : c w = (w', v) → v ≠ [] → Spec.Asked (c :: cs) w w' v
  | later {c cs w w' w'' v} : c w = (w', []) → Spec.Asked cs w' w'' v → Spec.Asked (c :: cs) w w'' v

/-- **C94**: `WhyNotReady` asks the consumers in order until one answers something. -/
theorem C94_asked_partial {W : Type} (cs : List (MCall W GoStr)) (w : W) : Spec.Asked cs w (muxWhyNotReady cs w).1 (muxWhyNotReady cs w).2 := by
  induction cs generalizing w with
  | nil => exact .none
  | cons c cs ih =>
    unfold muxWhyNotReady
    rcases hc : c w with ⟨w', v⟩
    by_cases hv : v = []
    · subst hv
      exact .later hc (by simpa using ih w')
    · simp only [ne_eq, hv, not_false_eq_true, if_true]
      exact .here hc hv

/-- No answer of the ordering layer is empty. -/
theorem owhy_text (w : OWhy) : w.text ≠ [] := by
  rcases w with _ | _ | _ | (_ | p | _)
  · decide
  · decide
  · decide
  · decide
  · intro h
    have := congrArg List.length h
    have e : (str "Pending prefix '").length = 16 := by decide
    simp only [OWhy.text, List.length_append, e, List.length_nil] at this
    omega
  · decide

/-- **C94**: the text tells the answer: two answers with the same text are the same. -/
theorem C94_told {w w' : OWhy} (h : w.text = w'.text) : w = w' := by
  have hp : ∀ p : GoStr, (OWhy.mp (.why (.pendingPrefix p))).text = str "Pending prefix '" ++ (p ++ str "'") := by intro p; simp [OWhy.text]
  have key : ∀ (p : GoStr) (w : OWhy), (∀ q, w ≠ .mp (.why (.pendingPrefix q))) → w.text ≠ (OWhy.mp (.why (.pendingPrefix p))).text := by
    intro p w hw e
    have h8 := congrArg (List.take 9) e
    rw [hp, List.take_append_of_le_length (by decide)] at h8
    rcases w with _ | _ | _ | (_ | q | _)
    · revert h8; decide
    · revert h8; decide
    · revert h8; decide
    · revert h8; decide
    · exact hw q rfl
    · revert h8; decide
  by_cases h1 : ∃ p, w = .mp (.why (.pendingPrefix p))
  · obtain ⟨p, rfl⟩ := h1
    by_cases h2 : ∃ q, w' = .mp (.why (.pendingPrefix q))
    · obtain ⟨q, rfl⟩ := h2
      rw [hp, hp] at h
      rw [List.append_cancel_right (List.append_cancel_left h)]
    · exact absurd h.symm (key p w' (fun q e => h2 ⟨q, e⟩))
  · by_cases h2 : ∃ q, w' = .mp (.why (.pendingPrefix q))
    · obtain ⟨q, rfl⟩ := h2
      exact absurd h (key q w (fun p e => h1 ⟨p, e⟩))
    · rcases w with _ | _ | _ | (_ | p | _) <;> rcases w' with _ | _ | _ | (_ | q | _) <;>
        first | rfl | exact absurd ⟨_, rfl⟩ h1 | exact absurd ⟨_, rfl⟩ h2 | (revert h; decide)

/-- A consumer that still waits for a prefix named after another answer does not look like that answer. -/
example : (OWhy.mp (.why (.pendingPrefix (str "ready")))).text = str "Pending prefix 'ready'" ∧ (OWhy.mp (.why .ready)).text = str "ready" := by decide

/-- **C94** (partial: when a Kafka consumer is the first; `C94_refuted` shows why): the answer is that of the ordering layer, which all consumers share. -/
theorem C94_why_partial (ks : List ConsumerKind) (w : OWhy) : muxConsumerWhy (.kafka :: ks) w.text = w.text := by
  have := owhy_text w
  simp [muxConsumerWhy, muxWhyNotReady, ConsumerKind.whyNotReady, this]

/-- **C94 fails** otherwise: a websocket consumer in front of a Kafka consumer answers "unknown" about a block that is done. -/
theorem C94_refuted : muxConsumerWhy [.ws, .kafka] OWhy.done.text = str "unknown" ∧ OWhy.done.text ≠ str "unknown" := by decide

/-- **C95**: the waiter is that of the first consumer that is not a null consumer, and the same at every call. -/
theorem C95_waiter (pre ks : List ConsumerKind) (k : ConsumerKind) (hpre : ∀ x ∈ pre, x = .null) (hk : k ≠ .null) :
    muxWaiter (pre ++ k :: ks) none = .omp pre.length ∧
    muxWaiter (pre ++ k :: ks) (some (muxWaiter (pre ++ k :: ks) none)) = .omp pre.length := by
  have key : ∀ i, muxWaiters i (pre ++ k :: ks) = some (.omp (i + pre.length)) := by
    induction pre with
    | nil =>
      intro i
      have e : k.waiter i = .omp i := by cases k <;> first | rfl | exact absurd rfl hk
      simp [muxWaiters, e]
    | cons x pre ih =>
      intro i
      have hx : x = .null := hpre x (by simp)
      subst hx
      have := ih (fun y hy => hpre y (by simp [hy])) (i + 1)
      simp only [List.cons_append, muxWaiters, ConsumerKind.waiter, ne_eq, not_true, if_false, this, List.length_cons, Option.some.injEq, WaiterOf.omp.injEq]
      omega
  have : muxWaiter (pre ++ k :: ks) none = .omp pre.length := by simp [muxWaiter, key]
  exact ⟨this, by rw [this]; rfl⟩

/-- **C95**: only null consumers: the waiter that finds nothing. -/
theorem C95_null_waiter (ks : List ConsumerKind) (h : ∀ x ∈ ks, x = .null) : muxWaiter ks none = .null := by
  have key : ∀ i, muxWaiters i ks = none := by
    induction ks with
    | nil => intro _; rfl
    | cons x ks ih =>
      intro i
      have hx : x = .null := h x (by simp)
      subst hx
      simpa [muxWaiters, ConsumerKind.waiter] using ih (fun y hy => h y (by simp [hy])) (i + 1)
  simp [muxWaiter, key]

/-- **C95**: a consumer of several transports is made exactly when every URL names a known protocol, with one consumer for each, in order. -/
theorem C95_resolve (urls : List GoStr) (cs : List ConsumerKind) :
    resolveMux urls = .ok cs ↔ Spec.Each (fun u c => resolveConsumer u = .ok c) urls cs := by
  have key : ∀ (urls : List GoStr) (acc cs : List ConsumerKind),
      resolveMuxs urls acc = .ok cs ↔ ∃ l, cs = acc ++ l ∧ Spec.Each (fun u c => resolveConsumer u = .ok c) urls l := by
    intro urls
    induction urls with
    | nil =>
      intro acc cs
      constructor
      · intro h
        simp only [resolveMuxs, Except.ok.injEq] at h
        exact ⟨[], by simp [h], .nil⟩
      · rintro ⟨l, rfl, h⟩
        cases h; simp [resolveMuxs]
    | cons u urls ih =>
      intro acc cs
      unfold resolveMuxs
      cases hu : resolveConsumer u with
      | error e =>
        constructor
        · intro h; cases h
        · rintro ⟨l, rfl, h⟩
          cases h with
          | cons h1 _ => rw [hu] at h1; cases h1
      | ok c =>
        simp only
        rw [ih]
        constructor
        · rintro ⟨l, rfl, h⟩
          exact ⟨c :: l, by simp, .cons hu h⟩
        · rintro ⟨l, rfl, h⟩
          cases h with
          | @cons _ b _ l2 h1 h2 =>
            rw [hu] at h1
            cases h1
            exact ⟨l2, by simp, h2⟩
  rw [resolveMux, key]
  constructor
  · rintro ⟨l, rfl, h⟩; simpa using h
  · intro h; exact ⟨cs, by simp, h⟩

example : resolveMux [str "null://", str "cardinal://kafka://a:9092", str "wss://b"] = .ok [.null, .kafka, .ws] ∧
    muxWaiter [.null, .kafka, .ws] none = .omp 1 ∧ muxConsumerWhy [.kafka, .null] (OWhy.mp .notFound).text = str "not found" := by decide

end Verif
