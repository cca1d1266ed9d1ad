import Verif.Props.Consumer
import Verif.Props.Wire
import Verif.Props.Kafka
/-!
# How far some refuted claims are from the code

C15, C27 and C63 are false of the code. Here is exactly what holds instead.
-/
namespace Verif

open Spec

/-- **C15**, exactly: "ready" is the answer when no sub-batch is unheard of and no prefix has messages to come. So it is wrong exactly when nothing but messages of
sub-batches whose headers have come are missing. -/
theorem C15_exact (o : MapOrder) (mp : MP) (h : Hash) {pb : PB} (hpb : mp.pendingBatches.get? h = some pb) :
    mp.whyNotReady o h = .why .ready ∧ ¬ Complete pb ↔
      (∀ id, pb.pendingBatches.get? id = none) ∧ (∀ x c, pb.prefixes.get? x = some c → c ≤ 0) ∧ ∃ id bits, pb.batches.get? id = some bits ∧ false ∈ bits := by
  have hb : mp.whyNotReady o h = .why .ready ↔ (∀ id, pb.pendingBatches.get? id = none) ∧ ∀ x c, pb.prefixes.get? x = some c → c ≤ 0 := by
    -- the answer does not depend on the sub-batches whose headers have come
    let pb' : PB := { pb with batches := GMap.empty }
    let mp' : MP := { mp with pendingBatches := mp.pendingBatches.insert h pb' }
    have h1 : mp'.pendingBatches.get? h = some pb' := by simp [mp']
    have h2 : mp'.whyNotReady o h = mp.whyNotReady o h := by
      unfold MP.whyNotReady
      rw [h1, hpb]
      rfl
    rw [← h2, (((C15_partial o mp' h).2 pb' h1).2.1 (by simp [pb', GMap.get?_empty]))]
    constructor
    · exact fun hc => ⟨hc.1, hc.2.1⟩
    · exact fun hc => ⟨hc.1, hc.2, by simp [pb', GMap.get?_empty]⟩
  rw [hb]
  constructor
  · rintro ⟨⟨h1, h2⟩, h3⟩
    refine ⟨h1, h2, ?_⟩
    apply Classical.byContradiction
    intro hno
    refine h3 ⟨h1, h2, fun id bits hi b hbit => ?_⟩
    cases b with
    | true => rfl
    | false => exact (hno ⟨id, bits, hi, hbit⟩).elim
  · rintro ⟨h1, h2, id, bits, h3, h4⟩
    refine ⟨⟨h1, h2⟩, fun hc => ?_⟩
    have := hc.2.2 id bits h3 false h4
    simp at this

/-- The hypotheses are met by the state of `C15_refuted`. -/
example : ∃ (mp : MP) (pb : PB), mp.pendingBatches.get? (exHash 1) = some pb ∧ mp.whyNotReady .plain (exHash 1) = .why .ready ∧ ¬ Complete pb := by
  obtain ⟨mp, pb, _, h1, h2, h3⟩ := C15_refuted
  exact ⟨mp, pb, h1, h3, h2⟩

/-- **C27**, exactly: the number announced by a Reorg message is the one number in the signed 32-bit range that differs from the given one by a multiple of 2³²; so it is the
given one exactly if that is in the range. -/
theorem C27_exact (env : Env) (mp : MP) (n : Int) (hash : Hash) (off : Int) (src : GoStr) :
    ∃ mp' n', mp.processMessage Avro.codec env ⟨(reorgMsg Avro.codec n hash).key, (reorgMsg Avro.codec n hash).value, off, src⟩ = .ok (mp', none) ∧
      mp'.log = mp.log ++ [.reorg n' hash] ∧ InInt32 n' ∧ (∃ k : Int, n' = n + k * 4294967296) ∧ (n' = n ↔ InInt32 n) := by
  have hin : InInt32 (Avro.wrap32 n) := by unfold InInt32 Avro.wrap32; omega
  have hid : Avro.wrap32 (Avro.wrap32 n) = Avro.wrap32 n := by unfold Avro.wrap32; omega
  have hk : ∃ k : Int, Avro.wrap32 n = n + k * 4294967296 := ⟨-((n + 2147483648) / 4294967296), by unfold Avro.wrap32; omega⟩
  have hmsg : reorgMsg Avro.codec n hash = reorgMsg Avro.codec (Avro.wrap32 n) hash := by
    unfold reorgMsg
    show Msg.mk _ (Avro.encInt n) = Msg.mk _ (Avro.encInt (Avro.wrap32 n))
    unfold Avro.encInt
    rw [hid]
  obtain ⟨mp', h1, h2⟩ := C27_partial Avro.codec_lawful env mp (Avro.wrap32 n) hash hin off src
  rw [hmsg]
  refine ⟨mp', _, h1, h2, hin, hk, ?_⟩
  constructor
  · intro e; rw [← e]; exact hin
  · intro e
    obtain ⟨k, hk⟩ := hk
    unfold InInt32 at e hin
    omega

/-- **C63**, exactly: the watcher panics exactly at header keys of fewer than 33 bytes, learns a hash exactly from the longer ones, and hears a producer exactly from pings that
are not its own. -/
theorem C63_exact (id key : Bytes) :
    (watchKey id key = .error .panic ↔ key.head? = some BatchType ∧ key.length < 33) ∧
    (∀ x, watchKey id key = .ok (.hash x) ↔ key.head? = some BatchType ∧ 33 ≤ key.length ∧ x = bytesToHash ((key.drop 1).take 32)) ∧
    (∀ x, watchKey id key = .ok (.heartbeat x) ↔ key.head? = some PingType ∧ key.drop 1 ≠ id ∧ x = bytesToHash (key.drop 1)) := by
  have hpb : PingType ≠ BatchType := by decide
  have hbp : BatchType ≠ PingType := by decide
  cases key with
  | nil => simp [watchKey]
  | cons t rest =>
    simp only [watchKey, List.head?_cons, Option.some.injEq, List.length_cons, List.drop_succ_cons, List.drop_zero]
    by_cases h1 : t = BatchType
    · subst h1
      by_cases h2 : rest.length + 1 < 33
      · simp [h2, hbp]
        omega
      · simp [h2, hbp]
        exact fun x => ⟨fun e => ⟨by omega, e.symm⟩, fun e => e.2.symm⟩
    · by_cases h2 : t = PingType
      · subst h2
        by_cases h3 : rest = id
        · simp [h3, hpb]
        · simp [h3, hpb]
          exact fun x => ⟨fun e => e.symm, fun e => e.symm⟩
      · simp [h1, h2]

/-- A key of each kind. -/
example : watchKey [1] [BatchType] = .error .panic ∧ watchKey [1] (BatchType :: List.replicate 40 1) = .ok (.hash (bytesToHash (List.replicate 32 1))) ∧
    watchKey [1] [PingType, 2] = .ok (.heartbeat (bytesToHash [2])) ∧ watchKey [1] [PingType, 1] = .ok .nothing := by decide +kernel

end Verif
