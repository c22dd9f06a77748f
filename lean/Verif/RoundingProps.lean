import Verif.Rounding
import Verif.HashTreeLemmas
import Mathlib.Tactic.Linarith
import Mathlib.Tactic.NormNum
import Mathlib.Tactic.FieldSimp
/-! Property theorems for hash trees, C140: the number of padding leaves with rounded arithmetic. -/

namespace Rodkina
namespace HashTree

theorem log_two_pos : 0 < Real.log 2 := Real.log_pos (by norm_num)

theorem log_two_le : Real.log 2 ≤ 1 := (Real.log_le_sub_one_of_pos (by norm_num)).trans (by norm_num)

/-- How far the logarithm of a number between two powers of two is from an integer. -/
theorem log_between (n j : ℕ) (h1 : 2 ^ j < n) (h2 : n < 2 ^ (j + 1)) :
    (j : ℝ) + 2⁻¹ ^ (j + 1) ≤ Real.log n / Real.log 2 ∧ Real.log n / Real.log 2 ≤ (j + 1 : ℝ) - 2⁻¹ ^ (j + 1) := by
  have hL := log_two_pos
  have hL1 := log_two_le
  have hpj : (0 : ℝ) < 2 ^ j := by positivity
  have hn : (0 : ℝ) < n := by
    have : 0 < n := by omega
    exact_mod_cast this
  have l1 : (2 : ℝ) ^ j + 1 ≤ n := by exact_mod_cast h1
  have l2 : (n : ℝ) + 1 ≤ 2 ^ (j + 1) := by exact_mod_cast h2
  have hinv : (2⁻¹ : ℝ) ^ (j + 1) = (2 ^ (j + 1))⁻¹ := inv_pow _ _
  have hp1 : (2 : ℝ) ^ (j + 1) = 2 * 2 ^ j := by rw [pow_succ]; ring
  have t1 : (2⁻¹ : ℝ) ^ (j + 1) ≤ 1 := pow_le_one₀ (by norm_num) (by norm_num)
  have t0 : (0 : ℝ) < 2⁻¹ ^ (j + 1) := by positivity
  constructor
  · rw [le_div_iff₀ hL]
    have e : Real.log n = j * Real.log 2 + Real.log (n / 2 ^ j) := by
      rw [Real.log_div hn.ne' hpj.ne', Real.log_pow]
      ring
    have b := Real.one_sub_inv_le_log_of_pos (x := n / 2 ^ j) (by positivity)
    have c : (2⁻¹ : ℝ) ^ (j + 1) ≤ 1 - (n / 2 ^ j : ℝ)⁻¹ := by
      rw [inv_div, hinv, hp1]
      rw [le_sub_iff_add_le, ← le_sub_iff_add_le']
      rw [div_le_iff₀ hn]
      have : (2 * 2 ^ j : ℝ)⁻¹ * (2 * 2 ^ j) = 1 := inv_mul_cancel₀ (by positivity)
      have q : (0 : ℝ) < (2 * 2 ^ j)⁻¹ := by positivity
      have q1 : (2 * 2 ^ j : ℝ)⁻¹ ≤ 2⁻¹ := by
        apply inv_anti₀ (by norm_num)
        have : (1 : ℝ) ≤ 2 ^ j := one_le_pow₀ (by norm_num)
        linarith
      nlinarith
    have d : 2⁻¹ ^ (j + 1) * Real.log 2 ≤ 2⁻¹ ^ (j + 1) := by nlinarith
    rw [e]
    nlinarith
  · rw [div_le_iff₀ hL]
    have hpj1 : (0 : ℝ) < 2 ^ (j + 1) := by positivity
    have e : Real.log n = (j + 1) * Real.log 2 + Real.log (n / 2 ^ (j + 1)) := by
      rw [Real.log_div hn.ne' hpj1.ne', Real.log_pow]
      push_cast
      ring
    have b := Real.log_le_sub_one_of_pos (x := n / 2 ^ (j + 1)) (by positivity)
    have c : (n / 2 ^ (j + 1) : ℝ) - 1 ≤ - 2⁻¹ ^ (j + 1) := by
      rw [hinv]
      have : (n / 2 ^ (j + 1) : ℝ) ≤ (2 ^ (j + 1) - 1) / 2 ^ (j + 1) := by
        apply div_le_div_of_nonneg_right _ hpj1.le
        linarith
      have q : ((2 : ℝ) ^ (j + 1) - 1) / 2 ^ (j + 1) = 1 - (2 ^ (j + 1))⁻¹ := by
        rw [sub_div, div_self hpj1.ne', one_div]
      linarith
    have d : 2⁻¹ ^ (j + 1) * Real.log 2 ≤ 2⁻¹ ^ (j + 1) := by nlinarith
    rw [e]
    nlinarith

/-- The errors of two logarithms and of a division together. -/
theorem rounded_close (A : Rounding) (x : ℝ) (hx : 2 ≤ x) :
    |A.div (A.log x) (A.log 2) - Real.log x / Real.log 2| ≤ 2⁻¹ ^ 47 * (Real.log x / Real.log 2) := by
  have hL := log_two_pos
  have hX : 0 < Real.log x := Real.log_pos (by linarith)
  obtain ⟨a1, a2⟩ := abs_le.mp (A.log_close x hx)
  obtain ⟨b1, b2⟩ := abs_le.mp (A.log_close 2 le_rfl)
  have ha : 0 < A.log x := by norm_num at a1 ⊢; linarith
  have hb : 0 < A.log 2 := by norm_num at b1 ⊢; linarith
  obtain ⟨c1, c2⟩ := abs_le.mp (A.div_close _ _ ha hb)
  have q0 : 0 < Real.log x / Real.log 2 := by positivity
  have hq : Real.log x = Real.log x / Real.log 2 * Real.log 2 := by field_simp
  generalize Real.log x / Real.log 2 = q at *
  have up : A.log x / A.log 2 ≤ q * (1 + 2⁻¹ ^ 48) := by
    rw [div_le_iff₀ hb]
    norm_num at *
    nlinarith [mul_pos q0 hL]
  have lo : q * (1 - 2⁻¹ ^ 48) ≤ A.log x / A.log 2 := by
    rw [le_div_iff₀ hb]
    norm_num at *
    nlinarith [mul_pos q0 hL]
  rw [abs_le]
  norm_num at *
  constructor <;> nlinarith

theorem ceil_rounded (A : Rounding) (n j : ℕ) (hj : j + 1 ≤ 40) (h0 : 2 ≤ n) (h1 : 2 ^ j < n) (h2 : n < 2 ^ (j + 1)) :
    ⌈A.div (A.log n) (A.log 2)⌉₊ = j + 1 := by
  obtain ⟨b1, b2⟩ := log_between n j h1 h2
  obtain ⟨c1, c2⟩ := abs_le.mp (rounded_close A n (by exact_mod_cast h0))
  have t : (2⁻¹ : ℝ) ^ 40 ≤ 2⁻¹ ^ (j + 1) := pow_le_pow_of_le_one (by norm_num) (by norm_num) hj
  have hj' : (j : ℝ) + 1 ≤ 40 := by exact_mod_cast hj
  have hs : (2⁻¹ : ℝ) ^ 47 * (Real.log n / Real.log 2) < 2⁻¹ ^ 40 := by
    have : Real.log n / Real.log 2 ≤ 40 := by
      have : (0 : ℝ) < 2⁻¹ ^ (j + 1) := by positivity
      linarith
    norm_num
    linarith
  rw [Nat.ceil_eq_iff (by omega)]
  push_cast
  constructor
  · linarith
  · linarith

theorem between_powers (n : ℕ) (h : 2 ≤ n) (hp : isPowerOfTwo n = false) (hb : n < 2 ^ 40) :
    ∃ j, j + 1 ≤ 40 ∧ 2 ^ j < n ∧ n < 2 ^ (j + 1) ∧ nextPowerOfTwo n = 2 ^ (j + 1) := by
  have np : ∀ k, n ≠ 2 ^ k := by
    intro k e
    have := (isPowerOfTwo_iff n).mpr ⟨k, e⟩
    rw [hp] at this
    cases this
  have h1 : n - 1 ≠ 0 := by omega
  have l1 := Nat.log2_self_le h1
  have l2 := Nat.lt_log2_self (n := n - 1)
  have a := np (Nat.log2 (n - 1) + 1)
  have h3 : n < 2 ^ (Nat.log2 (n - 1) + 1) := by omega
  refine ⟨Nat.log2 (n - 1), ?_, by omega, h3, rfl⟩
  have : 2 ^ Nat.log2 (n - 1) < 2 ^ 40 := by omega
  have := (Nat.pow_lt_pow_iff_right (a := 2) (by norm_num)).mp this
  omega

end HashTree

namespace Props
open HashTree

/-- C140: for every arithmetic that rounds, the number of leaves computed for any list of fewer than 2^40 blocks is the next power of
two, and the tree built is the one built with exact arithmetic. -/
theorem C140_rounding (A : Rounding) (S : Sha) :
    (∀ n, 2 ≤ n → n < 2 ^ 40 → (∀ k, n ≠ 2 ^ k) → ∃ k, nextRounded A n = 2 ^ k ∧ n ≤ 2 ^ k ∧ ∀ m, n ≤ 2 ^ m → k ≤ m) ∧
    ∀ blocks : Option (List Bytes), (∀ bs, blocks = some bs → bs.length < 2 ^ 40) → buildRounded A S blocks = build S blocks := by
  have key : ∀ n, 2 ≤ n → n < 2 ^ 40 → isPowerOfTwo n = false → nextRounded A n = nextPowerOfTwo n := by
    intro n h2 hb hp
    obtain ⟨j, hj, h3, h4, e⟩ := between_powers n h2 hp hb
    rw [e, nextRounded, ceil_rounded A n j hj h2 h3 h4]
  constructor
  · intro n h2 hb hp
    have hp' : isPowerOfTwo n = false := by
      cases e : isPowerOfTwo n with
      | false => rfl
      | true =>
        obtain ⟨k, hk⟩ := (isPowerOfTwo_iff n).mp e
        exact absurd hk (hp k)
    obtain ⟨j, hj, h3, h4, e⟩ := between_powers n h2 hp' hb
    refine ⟨j + 1, (key n h2 hb hp').trans e, h4.le, fun m hm => ?_⟩
    exact (Nat.pow_lt_pow_iff_right (a := 2) (by norm_num)).mp (lt_of_lt_of_le h3 hm)
  · intro blocks hb
    cases blocks with
    | none => rfl
    | some bs =>
      have hl := hb bs rfl
      have pad : ∀ hs : List Bytes, 1 ≤ hs.length → hs.length < 2 ^ 40 → padRounded A S hs = padHashes S hs := by
        intro hs l1 l2
        unfold padRounded padHashes
        cases hp : isPowerOfTwo hs.length with
        | true => rfl
        | false =>
          have : hs.length ≠ 1 := by
            intro e
            rw [e] at hp
            cases hp
          rw [key _ (by omega) l2 hp]
      unfold buildRounded build
      dsimp only
      rw [pad]
      · split <;> simp
        omega
      · rw [List.length_map]
        split
        · rw [List.length_append, List.length_singleton]
          omega
        · exact hl

/-- Arithmetic that does not round, and one that rounds every logarithm down and every quotient up. -/
example : ∃ A B : Rounding, A.log 3 = Real.log 3 ∧ B.log 3 < Real.log 3 ∧ B.div 3 2 > 3 / 2 := by
  refine ⟨⟨Real.log, (· / ·), ?_, ?_⟩, ⟨fun x => (1 - 2⁻¹ ^ 50) * Real.log x, fun a b => (1 + 2⁻¹ ^ 50) * (a / b), ?_, ?_⟩, rfl, ?_, ?_⟩
  · intro x hx
    have : 0 ≤ Real.log x := Real.log_nonneg (by linarith)
    rw [sub_self, abs_zero]
    positivity
  · intro a b ha hb
    rw [sub_self, abs_zero]
    positivity
  · intro x hx
    have : 0 ≤ Real.log x := Real.log_nonneg (by linarith)
    rw [abs_le]
    norm_num
    constructor <;> nlinarith
  · intro a b ha hb
    have : 0 < a / b := by positivity
    rw [abs_le]
    norm_num
    constructor <;> nlinarith
  · have : 0 < Real.log 3 := Real.log_pos (by norm_num)
    norm_num
    nlinarith
  · norm_num

/-- Why the code asks first whether the length is a power of two: on powers of two rounding can double the number of leaves. -/
theorem C140_powers_need_the_test : ∃ A : Rounding, ∀ k, 1 ≤ k → k ≤ 40 → nextRounded A (2 ^ k) = 2 ^ (k + 1) := by
  have hd : ∀ a b : ℝ, 0 < a → 0 < b → |(1 + 2⁻¹ ^ 50) * (a / b) - a / b| ≤ 2⁻¹ ^ 50 * (a / b) := by
    intro a b ha hb
    have : 0 < a / b := by positivity
    rw [abs_le]
    norm_num
    constructor <;> nlinarith
  refine ⟨⟨Real.log, fun a b => (1 + 2⁻¹ ^ 50) * (a / b), fun x hx => ?_, hd⟩, fun k h1 h2 => ?_⟩
  · have : 0 ≤ Real.log x := Real.log_nonneg (by linarith)
    rw [sub_self, abs_zero]
    positivity
  · unfold nextRounded
    congr 1
    rw [Nat.ceil_eq_iff (by omega)]
    have e : Real.log ((2 ^ k : ℕ) : ℝ) / Real.log 2 = k := by
      push_cast
      rw [Real.log_pow, mul_div_assoc, div_self log_two_pos.ne', mul_one]
    dsimp only
    rw [e]
    have k1 : (1 : ℝ) ≤ k := by exact_mod_cast h1
    have k2 : (k : ℝ) ≤ 40 := by exact_mod_cast h2
    push_cast
    norm_num
    constructor <;> nlinarith

end Props
end Rodkina
