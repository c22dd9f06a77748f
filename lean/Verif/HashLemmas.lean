import Verif.Hash
/-! Helper lemmas about the hash model (no property statements here). -/

namespace Rodkina.Hash

theorem fromBytes_length (S : Sha) (b : Bytes) : (fromBytes S b).length = 64 := by
  unfold fromBytes size
  split
  · exact S.len b
  · rename_i h; exact Decidable.not_not.mp h

theorem fromBytes_of_len {S : Sha} {b : Bytes} (h : b.length = 64) : fromBytes S b = b := by
  unfold fromBytes size
  simp [h]

theorem fromBytes_of_ne {S : Sha} {b : Bytes} (h : b.length ≠ 64) : fromBytes S b = S.f b := by
  unfold fromBytes size
  simp [h]

theorem foldl_append (l : List Bytes) (a : Bytes) :
    l.foldl (fun merged row => merged ++ row) a = a ++ l.flatten := by
  induction l generalizing a with
  | nil => simp
  | cons x xs ih => simp [ih]

theorem fromMultiBytes_eq (S : Sha) (l : List Bytes) : fromMultiBytes S l = fromBytes S l.flatten := by
  simp [fromMultiBytes, foldl_append]

theorem hexDigit_value : ∀ n, n < 16 → hexValue (hexDigit n) = some n := by decide

theorem hexDecode_toString (h : Bytes) : hexDecode (toString h) = .ok h := by
  induction h with
  | nil => rfl
  | cons b bs ih =>
    have hb : b.toNat < 256 := b.toNat_lt
    have e : toString (b :: bs) = hexDigit (b.toNat / 16) :: hexDigit (b.toNat % 16) :: toString bs := by
      simp [toString]
    have h3 : 16 * (b.toNat / 16) + b.toNat % 16 = b.toNat := by omega
    rw [e]
    simp only [hexDecode, hexDigit_value (b.toNat / 16) (by omega), hexDigit_value (b.toNat % 16) (by omega), ih, h3]
    simp

theorem toString_inj {a b : Bytes} (h : toString a = toString b) : a = b := by
  have h1 := hexDecode_toString a
  rw [h, hexDecode_toString b] at h1
  injection h1 with h1
  exact h1.symm

end Rodkina.Hash
