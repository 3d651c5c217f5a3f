import Verif.Props.Random
import Mathlib.Tactic.Ring
import Mathlib.Tactic.NormNum

/-!
C58, continued: what equal hashes and different hashes say about keys of `hash_set` and `hash_map`
(`numeric/hash.hpp`): collisions that exist for every seed, the order of the elements, and one number kept in two types.
-/

namespace Actl.Random

/-- **C58**: every word is the hash of some 64-bit number. -/
theorem hashArith8_surjective (seed : W) : Function.Surjective (hashArith seed 8) := by
  intro w
  obtain ⟨y, hy⟩ := splitmix_bijective.2 w
  refine ⟨y - seed, ?_⟩
  have : (y - seed : BitVec (8 * 8)).setWidth 64 <<< (64 - 8 * 8) = y - seed := by simp
  unfold hashArith hashCompute
  rw [this, BitVec.sub_add_cancel, hy]

/-- **C58**: after any elements and for any target there is exactly one 64-bit number such that the range (or the pair, tuple) ending
with it has the target as its hash.  So every hash of a range is shared by ranges of every greater length, whatever the seed. -/
theorem hashRange_hit (seed : W) (pre : List W) (target : W) :
    ∃! x : BitVec (8 * 8), hashRange (pre ++ [hashArith seed 8 x]) = target := by
  have hsur := hashArith8_surjective seed
  obtain ⟨x, hx⟩ := hsur ((target ^^^ hashRange pre) -
    ((hashRange pre <<< 6) + (hashRange pre >>> 2) + 0x9e3779b9#64))
  refine ⟨x, ?_, ?_⟩
  · show hashRange (pre ++ [hashArith seed 8 x]) = target
    rw [hx]
    simp only [hashRange, List.foldl_append, List.foldl_cons, List.foldl_nil]
    unfold hashCombine
    rw [BitVec.add_comm _ (_ - _), BitVec.sub_add_cancel, ← BitVec.xor_assoc, BitVec.xor_comm _ target, BitVec.xor_assoc,
      BitVec.xor_self, BitVec.xor_zero]
  · intro y hy
    have h1 : hashRange (pre ++ [hashArith seed 8 x]) = target := by
      rw [hx]
      simp only [hashRange, List.foldl_append, List.foldl_cons, List.foldl_nil]
      unfold hashCombine
      rw [BitVec.add_comm _ (_ - _), BitVec.sub_add_cancel, ← BitVec.xor_assoc, BitVec.xor_comm _ target, BitVec.xor_assoc,
        BitVec.xor_self, BitVec.xor_zero]
    exact hashArith_injective seed (Nat.le_refl 8) (hashRange_last_injective pre (hy.trans h1.symm))

/-- **C58**, the negation for keys that are themselves unordered sets: for every seed there are two numbers such that the hash of a range holding
them depends on their order.  Equal `std::unordered_set`s may list their elements in different orders (`hash_value` of a range follows
that order), so equal keys of this type may have different hashes. -/
theorem hash_unordered_fails (seed : W) :
    ∃ x y : BitVec (8 * 8), x ≠ y ∧
      hashRange ([x, y].map (hashArith seed 8)) ≠ hashRange ([y, x].map (hashArith seed 8)) := by
  have hsur := hashArith8_surjective seed
  obtain ⟨x, hx⟩ := hsur 0
  obtain ⟨y, hy⟩ := hsur 1
  refine ⟨x, y, ?_, ?_⟩
  · rintro rfl
    rw [hx] at hy
    revert hy; decide
  · simp only [List.map_cons, List.map_nil, hx, hy]
    decide +kernel

/-- **C58**, the negation for keys of different types that compare equal (the transparent `hash_function<>`): a number other than 0 kept in an unsigned
type of
`n` bytes and in a wider one of `m` bytes has different hashes, whatever the seed: the bytes are put at the end of the word. -/
theorem hash_widths_differ (seed : W) {n m : Nat} (hnm : n < m) (hm : m ≤ 8) (x : BitVec (8 * n)) :
    hashArith seed n x = hashArith seed m (x.setWidth (8 * m)) ↔ x = 0 := by
  constructor
  · intro h
    have h := congrArg BitVec.toNat (hash64_injective seed h)
    have hx := x.isLt
    have e1 : 2 ^ (8 * n) * 2 ^ (64 - 8 * n) = 2 ^ 64 := by rw [← pow_add]; congr 1; omega
    have e2 : 2 ^ (8 * n) ≤ 2 ^ (8 * m) := Nat.pow_le_pow_right (by omega) (by omega)
    have e3 : 2 ^ (8 * m) * 2 ^ (64 - 8 * m) = 2 ^ 64 := by rw [← pow_add]; congr 1; omega
    have e4 : 2 ^ (8 * m) ≤ 2 ^ 64 := Nat.pow_le_pow_right (by omega) (by omega)
    have e5 : 2 ^ (64 - 8 * m) < 2 ^ (64 - 8 * n) := Nat.pow_lt_pow_right (by omega) (by omega)
    simp only [BitVec.toNat_shiftLeft, BitVec.toNat_setWidth, Nat.shiftLeft_eq] at h
    rw [Nat.mod_eq_of_lt (a := x.toNat) (b := 2 ^ 64) (by omega),
      Nat.mod_eq_of_lt (a := x.toNat) (b := 2 ^ (8 * m)) (by omega),
      Nat.mod_eq_of_lt (a := x.toNat) (b := 2 ^ 64) (by omega)] at h
    have f1 : x.toNat * 2 ^ (64 - 8 * n) < 2 ^ 64 := by
      rw [← e1]; exact Nat.mul_lt_mul_of_pos_right hx (Nat.two_pow_pos _)
    have f2 : x.toNat * 2 ^ (64 - 8 * m) < 2 ^ 64 := by
      rw [← e3]; exact Nat.mul_lt_mul_of_pos_right (by omega) (Nat.two_pow_pos _)
    rw [Nat.mod_eq_of_lt f1, Nat.mod_eq_of_lt f2] at h
    apply BitVec.eq_of_toNat_eq
    rcases Nat.eq_zero_or_pos x.toNat with h0 | h0
    · simpa using h0
    · exact absurd (Nat.mul_lt_mul_of_pos_left e5 h0) (by omega)
  · rintro rfl
    simp [hashArith]

/-- **C58**: same for signed types (the wider one holds the sign-extended number): only 0 has the same hash in both. -/
theorem hash_signed_widths_differ (seed : W) {n m : Nat} (hn : 0 < n) (hnm : n < m) (hm : m ≤ 8) (x : BitVec (8 * n)) :
    hashArith seed n x = hashArith seed m (x.signExtend (8 * m)) ↔ x = 0 := by
  constructor
  · intro h
    have h := congrArg BitVec.toInt (hash64_injective seed h)
    have key : ∀ (k : Nat), 0 < k → k ≤ 8 → ∀ y : BitVec (8 * k),
        (y.setWidth 64 <<< (64 - 8 * k)).toInt = y.toInt * 2 ^ (64 - 8 * k) := by
      intro k hk0 hk y
      have e1 : (2 : Int) ^ (8 * k - 1) * 2 ^ (64 - 8 * k) = 2 ^ 63 := by rw [← pow_add]; congr 1; omega
      have e2 : (2 : Int) ^ (8 * k) * 2 ^ (64 - 8 * k) = 2 ^ 64 := by rw [← pow_add]; congr 1; omega
      have e4 : 2 ^ (8 * k) ≤ 2 ^ 64 := Nat.pow_le_pow_right (by omega) (by omega)
      have hy := y.isLt
      have lo := BitVec.le_toInt y
      have hi := BitVec.toInt_lt (x := y)
      rw [BitVec.toInt_shiftLeft, BitVec.toNat_setWidth, Nat.mod_eq_of_lt (by omega), Nat.shiftLeft_eq]
      have hp : (0 : Int) < 2 ^ (64 - 8 * k) := by exact_mod_cast Nat.two_pow_pos _
      have hc : ((y.toNat * 2 ^ (64 - 8 * k) : Nat) : Int) = y.toInt * 2 ^ (64 - 8 * k) ∨
          ((y.toNat * 2 ^ (64 - 8 * k) : Nat) : Int) = y.toInt * 2 ^ (64 - 8 * k) + 2 ^ 64 := by
        rw [BitVec.toInt_eq_toNat_cond]
        split
        · left; push_cast; rfl
        · right; push_cast; rw [sub_mul, e2]; ring
      have b1 : -(2 : Int) ^ 63 ≤ y.toInt * 2 ^ (64 - 8 * k) := by
        rw [← e1, ← neg_mul]; exact mul_le_mul_of_nonneg_right lo hp.le
      have b2 : y.toInt * 2 ^ (64 - 8 * k) < 2 ^ 63 := by
        rw [← e1]; exact mul_lt_mul_of_pos_right hi hp
      have hb : (y.toInt * 2 ^ (64 - 8 * k)).bmod (2 ^ 64) = y.toInt * 2 ^ (64 - 8 * k) :=
        Int.bmod_eq_of_le (by simpa using b1) (by simpa using b2)
      rcases hc with hc | hc
      · rw [hc, hb]
      · rw [hc]
        have : (2 : Int) ^ 64 = ((2 ^ 64 : Nat) : Int) := by norm_num
        rw [this, Int.add_bmod_right, hb]
    rw [key n hn (by omega), key m (by omega) hm, BitVec.toInt_signExtend_of_le (by omega)] at h
    have e5 : (2 : Int) ^ (64 - 8 * m) < 2 ^ (64 - 8 * n) := by
      exact_mod_cast Nat.pow_lt_pow_right (a := 2) (by omega) (show 64 - 8 * m < 64 - 8 * n by omega)
    have hz : x.toInt * (2 ^ (64 - 8 * n) - 2 ^ (64 - 8 * m)) = 0 := by rw [mul_sub, h, sub_self]
    rcases mul_eq_zero.mp hz with h0 | h0
    · exact BitVec.eq_of_toInt_eq (by simpa using h0)
    · omega
  · rintro rfl
    have : (0 : BitVec (8 * n)).signExtend (8 * m) = 0 := by
      apply BitVec.eq_of_toInt_eq
      rw [BitVec.toInt_signExtend_of_le (by omega)]; simp
    rw [this]
    simp [hashArith]

/-- **C58**: a range is never a key with the hash of its own prefix unless its last element is the one such number: appending two different numbers
gives two different hashes, one of which at most is the hash of the prefix. -/
theorem hashRange_prefix_once (seed : W) (pre : List W) {x y : BitVec (8 * 8)} (hxy : x ≠ y)
    (hx : hashRange (pre ++ [hashArith seed 8 x]) = hashRange pre) :
    hashRange (pre ++ [hashArith seed 8 y]) ≠ hashRange pre := fun hy =>
  hxy ((hashRange_hit seed pre (hashRange pre)).unique hx hy)

/-! Concrete cases: `int 1` and `long 1`, `unsigned char 200` and `unsigned 200`; a number that extends the empty range without changing its hash. -/

example (seed : W) : hashArith seed 4 1#32 ≠ hashArith seed 8 1#64 := fun h =>
  absurd ((hash_signed_widths_differ seed (n := 4) (m := 8) (by decide) (by decide) (by decide) 1#32).mp h) (by decide)
example (seed : W) : hashArith seed 1 200#8 ≠ hashArith seed 4 200#32 := fun h =>
  absurd ((hash_widths_differ seed (n := 1) (m := 4) (by decide) (by decide) 200#8).mp h) (by decide)
example (seed : W) : ∃! x : BitVec (8 * 8), hashRange [hashArith seed 8 x] = hashRange [] :=
  hashRange_hit seed [] (hashRange [])

end Actl.Random
