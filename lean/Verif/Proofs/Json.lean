import Verif.Proofs.Websocket
/-!
# JSON strings that are UTF-8 come back unchanged
-/
namespace Verif
open Spec

theorem utf8Size_encode (c : Char) (r : Bytes) :
    utf8Size (String.utf8EncodeChar c ++ r) = some (String.utf8EncodeChar c).length := by
  have hv : c.val.toNat < 55296 ∨ 57343 < c.val.toNat ∧ c.val.toNat < 1114112 := c.valid
  unfold String.utf8EncodeChar
  simp only []
  generalize c.val.toNat = v at hv
  split
  · rename_i h
    have h1 : (UInt8.ofNat v).toNat = v := by simp; omega
    simp only [List.cons_append, List.nil_append, utf8Size, h1]
    rw [if_pos (by omega)]; rfl
  · split
    · rename_i h0 h
      have h1 : (UInt8.ofNat (v / 64 % 32 + 192)).toNat = v / 64 % 32 + 192 := by simp; omega
      have h2 : (UInt8.ofNat (v % 64 + 128)).toNat = v % 64 + 128 := by simp; omega
      simp only [List.cons_append, List.nil_append, utf8Size, h1, utf8Accept, h2]
      rw [if_neg (by omega), if_neg (by omega), if_pos (by omega), if_pos (by simp; omega)]; rfl
    · split
      · rename_i h0 h00 h
        have h1 : (UInt8.ofNat (v / 4096 % 16 + 224)).toNat = v / 4096 % 16 + 224 := by simp; omega
        have h2 : (UInt8.ofNat (v / 64 % 64 + 128)).toNat = v / 64 % 64 + 128 := by simp; omega
        have h3 : (UInt8.ofNat (v % 64 + 128)).toNat = v % 64 + 128 := by simp; omega
        simp only [List.cons_append, List.nil_append, utf8Size, h1, utf8Accept, h2, h3]
        rw [if_neg (by omega), if_neg (by omega), if_neg (by omega), if_pos (by omega), if_pos]
        · rfl
        · simp only [Bool.and_eq_true, decide_eq_true_eq]
          refine ⟨⟨?_, ?_⟩, ?_, ?_⟩
          · split <;> omega
          · split <;> omega
          · omega
          · omega
      · rename_i h0 h00 h
        have h1 : (UInt8.ofNat (v / 262144 % 8 + 240)).toNat = v / 262144 % 8 + 240 := by simp; omega
        have h2 : (UInt8.ofNat (v / 4096 % 64 + 128)).toNat = v / 4096 % 64 + 128 := by simp; omega
        have h3 : (UInt8.ofNat (v / 64 % 64 + 128)).toNat = v / 64 % 64 + 128 := by simp; omega
        have h4 : (UInt8.ofNat (v % 64 + 128)).toNat = v % 64 + 128 := by simp; omega
        simp only [List.cons_append, List.nil_append, utf8Size, h1, utf8Accept, h2, h3, h4]
        rw [if_neg (by omega), if_neg (by omega), if_neg (by omega), if_neg (by omega), if_pos (by omega), if_pos]
        · rfl
        · simp only [Bool.and_eq_true, decide_eq_true_eq]
          refine ⟨⟨⟨?_, ?_⟩, ?_, ?_⟩, ?_, ?_⟩
          · split <;> omega
          · split <;> omega
          · omega
          · omega
          · omega
          · omega

theorem jsonStringAux_utf8 (cs : List Char) (n : Nat) (hn : (cs.flatMap String.utf8EncodeChar).length ≤ n) :
    jsonStringAux n (cs.flatMap String.utf8EncodeChar) = cs.flatMap String.utf8EncodeChar := by
  induction cs generalizing n with
  | nil => cases n <;> rfl
  | cons c cs ih =>
    have h0 := utf8Size_encode c (cs.flatMap String.utf8EncodeChar)
    have hpos : String.utf8EncodeChar c ≠ [] := String.utf8EncodeChar_ne_nil
    simp only [List.flatMap_cons, List.length_append] at hn ⊢
    generalize String.utf8EncodeChar c = e at h0 hpos hn
    generalize cs.flatMap String.utf8EncodeChar = r at h0 hn ih
    have hl : 0 < e.length := List.length_pos_iff.mpr hpos
    cases n with
    | zero => omega
    | succ n =>
      cases e with
      | nil => exact absurd rfl hpos
      | cons x e =>
        simp only [List.cons_append] at h0 ⊢
        unfold jsonStringAux
        rw [h0]
        simp only [List.length_cons] at hn
        have ht : (x :: (e ++ r)).take (x :: e).length = x :: e := List.take_left (l₁ := x :: e) (l₂ := r)
        have hd : (x :: (e ++ r)).drop (x :: e).length = r := List.drop_left (l₁ := x :: e) (l₂ := r)
        simp only []
        rw [ht, hd, ih n (by omega)]
        rfl

theorem jsonString_utf8 {s : GoStr} (h : Utf8 s) : jsonString s = s := by
  obtain ⟨cs, e⟩ := h
  rw [e]
  exact jsonStringAux_utf8 cs _ (Nat.le_refl _)

theorem map_jsonString {l : List GoStr} (h : ∀ k ∈ l, Utf8 k) : l.map jsonString = l := by
  induction l with
  | nil => rfl
  | cons x l ih =>
    simp only [List.map_cons, jsonString_utf8 (h x (by simp)), ih (fun k hk => h k (by simp [hk]))]

/-- A map with UTF-8 keys comes back as the same map. -/
theorem jsonMap_utf8 {V : Type} (o : MapOrder) (n : Nat) (m : GMap GoStr V) (h : ∀ k ∈ m.keys, Utf8 k) :
    jsonMap o n m = m.reorder o n := by
  have hp := o.perm n m.entries
  have hn : ((o.ord n m.entries).map Prod.fst).Nodup := (hp.map Prod.fst).nodup_iff.mpr m.nodup
  have hk : ∀ e ∈ o.ord n m.entries, jsonString e.1 = e.1 := fun e he =>
    jsonString_utf8 (h _ (List.mem_map_of_mem (f := Prod.fst) (hp.mem_iff.mp he)))
  refine GMap.ext_entries ?_
  have : ∀ (l : List (GoStr × V)) (acc : GMap GoStr V), (∀ e ∈ l, jsonString e.1 = e.1) →
      l.foldl (fun acc e => acc.insert (jsonString e.1) e.2) acc = l.foldl (fun acc e => acc.insert e.1 e.2) acc := by
    intro l
    induction l with
    | nil => intros; rfl
    | cons e l ih =>
      intro acc hl
      simp only [List.foldl_cons]
      rw [hl e (by simp), ih _ (fun x hx => hl x (by simp [hx]))]
  unfold jsonMap
  rw [this _ _ hk]
  exact GMap.ofList_entries hn

theorem ofUint64_wireUint64 {n : Int} (h : InInt64 n) : ofUint64 (wireUint64 n) = n := by
  obtain ⟨h1, h2⟩ := h
  unfold ofUint64 wireUint64
  split <;> omega

end Verif
