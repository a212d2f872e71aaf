import Verif.Proof.Scan.Utf8

/-! # Texts are determined by their bytes -/

namespace Yary

open Spec

theorem utf8_inj {a b : List Char} (h : utf8 a = utf8 b) : a = b := by
  have key : ∀ l : List Char, utf8 l = (l.flatMap String.utf8EncodeChar).map UInt8.toNat := by
    intro l
    induction l with
    | nil => rfl
    | cons c l ih => simp only [utf8, List.flatMap_cons, List.map_append, utf8Char] at ih ⊢; rw [← ih]
  rw [key, key] at h
  have h' := (List.map_inj_right (fun x y => UInt8.toNat_inj.1)).1 h
  have e : a.utf8Encode = b.utf8Encode := by
    unfold List.utf8Encode
    rw [h']
  have := congrArg ByteArray.utf8Decode? e
  rw [List.utf8Decode?_utf8Encode, List.utf8Decode?_utf8Encode] at this
  simpa using this

end Yary
