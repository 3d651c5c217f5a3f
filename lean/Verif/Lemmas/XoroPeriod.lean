import Verif.Lemmas.Random
import Mathlib.NumberTheory.LucasPrimality
import Mathlib.Tactic.NormNum.Prime
import Mathlib.Tactic.ReduceModChar
import Mathlib.Dynamics.PeriodicPts.Defs
import Mathlib.Data.BitVec
import Mathlib.SetTheory.Cardinal.Finite

/-!
The order of the state transition of `xoroshiro128cplus`.  The transition is linear over the
field with two elements, so polynomials over that field act on states; a polynomial is given by
the number whose bits are its coefficients.  The polynomial `xoroPoly`, of degree 128, acts as
zero, hence polynomials can be multiplied modulo it without changing their action.
-/

namespace Actl.Random

/-- The state transition. -/
def xoroStep (s : Xoro) : Xoro := (xoroNext s).1

/-- The state that only leads to itself. -/
def Xoro.zero : Xoro := ⟨0, 0⟩

/-- Sum of states over the field with two elements. -/
def Xoro.add (s t : Xoro) : Xoro := ⟨s.s0 ^^^ t.s0, s.s1 ^^^ t.s1⟩

theorem xoroAdd_assoc (a b c : Xoro) : (a.add b).add c = a.add (b.add c) := by
  simp [Xoro.add, BitVec.xor_assoc]

theorem xoroAdd_comm (a b : Xoro) : a.add b = b.add a := by
  simp [Xoro.add, BitVec.xor_comm]

theorem xoroAdd_self (a : Xoro) : a.add a = Xoro.zero := by simp [Xoro.add, Xoro.zero]

theorem xoroAdd_zero (a : Xoro) : a.add Xoro.zero = a := by simp [Xoro.add, Xoro.zero]

theorem zero_xoroAdd (a : Xoro) : Xoro.add Xoro.zero a = a := by simp [Xoro.add, Xoro.zero]

theorem xoroAdd_eq_zero {a b : Xoro} (h : a.add b = Xoro.zero) : a = b := by
  have := congrArg (fun c => Xoro.add c b) h
  simpa [xoroAdd_assoc, xoroAdd_self, xoroAdd_zero, zero_xoroAdd] using this

instance : Std.Associative Xoro.add := ⟨xoroAdd_assoc⟩
instance : Std.Commutative Xoro.add := ⟨xoroAdd_comm⟩

theorem xoroStep_zero : xoroStep Xoro.zero = Xoro.zero := xoroNext_zero

theorem xoroStep_add (s t : Xoro) : xoroStep (s.add t) = (xoroStep s).add (xoroStep t) := by
  unfold xoroStep xoroNext Xoro.add
  obtain ⟨x, y⟩ := s
  obtain ⟨z, w⟩ := t
  simp only [BitVec.shiftLeft_xor_distrib, BitVec.ushiftRight_xor_distrib, Xoro.mk.injEq]
  constructor
  · generalize x <<< 55 = a1, x >>> 9 = a2, z <<< 55 = a3, z >>> 9 = a4, x <<< 14 = a5,
      y <<< 14 = a6, z <<< 14 = a7, w <<< 14 = a8
    ac_rfl
  · generalize x <<< 36 = a1, x >>> 28 = a2, z <<< 36 = a3, z >>> 28 = a4, y <<< 36 = a5,
      y >>> 28 = a6, w <<< 36 = a7, w >>> 28 = a8
    ac_rfl

theorem xoroStep_iter_add (n : Nat) (s t : Xoro) :
    xoroStep^[n] (s.add t) = (xoroStep^[n] s).add (xoroStep^[n] t) := by
  induction n generalizing s t with
  | zero => rfl
  | succ n ih => simp only [Function.iterate_succ_apply, xoroStep_add, ih]

theorem xoroIter_eq (n : Nat) (s : Xoro) : xoroIter n s = xoroStep^[n] s := by
  induction n generalizing s with
  | zero => rfl
  | succ n ih => simp only [Function.iterate_succ_apply, xoroIter, ih]; rfl

/-! ### Action of polynomials -/

/-- The action on a state of the polynomial given by the `k` lowest bits of `a`. -/
def act : Nat → Nat → Xoro → Xoro
  | 0, _, _ => Xoro.zero
  | k + 1, a, s => match Nat.beq (Nat.mod a 2) 1 with
    | true => Xoro.add s (act k (Nat.div a 2) (xoroStep s))
    | false => act k (Nat.div a 2) (xoroStep s)

/-- One term of the action. -/
def term (b : Bool) (s : Xoro) : Xoro := if b then s else Xoro.zero

theorem term_add (b : Bool) (s t : Xoro) : term b (s.add t) = (term b s).add (term b t) := by
  cases b <;> simp [term, xoroAdd_zero]

theorem term_xor (b c : Bool) (s : Xoro) : term (b ^^ c) s = (term b s).add (term c s) := by
  cases b <;> cases c <;> simp [term, xoroAdd_zero, zero_xoroAdd, xoroAdd_self]

theorem xoroStep_term (b : Bool) (s : Xoro) : xoroStep (term b s) = term b (xoroStep s) := by
  cases b <;> simp [term, xoroStep_zero]

theorem act_succ (k a : Nat) (s : Xoro) :
    act (k + 1) a s = (term (a.testBit 0) s).add (act k (a / 2) (xoroStep s)) := by
  rw [act]
  have e : a.testBit 0 = Nat.beq (Nat.mod a 2) 1 := by
    rw [Nat.testBit_zero]
    show decide (a % 2 = 1) = Nat.beq (a % 2) 1
    rcases Nat.mod_two_eq_zero_or_one a with h | h <;> rw [h] <;> rfl
  rw [e]
  cases Nat.beq (Nat.mod a 2) 1 <;> simp [term, zero_xoroAdd] <;> rfl

theorem act_add (k a : Nat) (s t : Xoro) : act k a (s.add t) = (act k a s).add (act k a t) := by
  induction k generalizing a s t with
  | zero => simp [act, xoroAdd_zero]
  | succ k ih => simp only [act_succ, term_add, xoroStep_add, ih]; ac_rfl

theorem act_zero (k a : Nat) : act k a Xoro.zero = Xoro.zero := by
  have h := act_add k a Xoro.zero Xoro.zero
  rw [xoroAdd_self, xoroAdd_self] at h
  exact h

theorem act_step (k a : Nat) (s : Xoro) : act k a (xoroStep s) = xoroStep (act k a s) := by
  induction k generalizing a s with
  | zero => simp [act, xoroStep_zero]
  | succ k ih => simp only [act_succ, xoroStep_add, xoroStep_term, ih]

theorem act_xor (k a b : Nat) (s : Xoro) : act k (a ^^^ b) s = (act k a s).add (act k b s) := by
  induction k generalizing a b s with
  | zero => simp [act, xoroAdd_zero]
  | succ k ih =>
    simp only [act_succ, Nat.testBit_xor, term_xor, Nat.xor_div_two, ih]; ac_rfl

theorem act_zero_poly (k : Nat) (s : Xoro) : act k 0 s = Xoro.zero := by
  have h := act_xor k 0 0 s
  rw [xoroAdd_self] at h
  exact h

/-- The highest term split off. -/
theorem act_last (k a : Nat) (s : Xoro) :
    act (k + 1) a s = (act k a s).add (term (a.testBit k) (xoroStep^[k] s)) := by
  induction k generalizing a s with
  | zero => rw [act_succ, act, act, xoroAdd_zero, zero_xoroAdd]; rfl
  | succ k ih =>
    rw [act_succ (k + 1), ih, act_succ k, ← Nat.testBit_succ, Function.iterate_succ_apply,
      xoroAdd_assoc]

theorem act_double (k a : Nat) (s : Xoro) : act (k + 1) (2 * a) s = xoroStep (act k a s) := by
  rw [act_succ, ← act_step]
  simp [term, zero_xoroAdd]

/-! ### A polynomial acting as zero -/

def xoroPoly : Nat := 0x100653ced7f29f88a5fd66762f0e1c001

theorem span0 {P : Xoro → Prop} (h0 : P Xoro.zero) (hadd : ∀ s t, P s → P t → P (s.add t))
    (hb : ∀ i : Fin 64, P ⟨1#64 <<< i.val, 0⟩) : ∀ k ≤ 64, ∀ x : W,
    (∀ j, k ≤ j → x.getLsbD j = false) → P ⟨x, 0⟩ := by
  intro k
  induction k with
  | zero =>
    intro _ x hx
    have : x = 0#64 := by
      apply BitVec.eq_of_getLsbD_eq; intro i _; rw [hx i (by omega)]; simp
    rw [this]; exact h0
  | succ k ih =>
    intro hk x hx
    by_cases hbit : x.getLsbD k = true
    · have hP : P ⟨x ^^^ (1#64 <<< k), 0⟩ := by
        refine ih (by omega) _ fun j hj => ?_
        rw [BitVec.getLsbD_xor]
        rcases Nat.eq_or_lt_of_le hj with rfl | hj
        · rw [hbit]; simp [show k < 64 by omega]
        · rw [hx j hj]; simp; intro _ _; omega
      have := hadd _ _ hP (hb ⟨k, by omega⟩)
      simpa [Xoro.add, BitVec.xor_assoc] using this
    · refine ih (by omega) x fun j hj => ?_
      rcases Nat.eq_or_lt_of_le hj with rfl | hj
      · simpa using hbit
      · exact hx j hj

theorem span1 {P : Xoro → Prop} (h0 : P Xoro.zero) (hadd : ∀ s t, P s → P t → P (s.add t))
    (hb : ∀ i : Fin 64, P ⟨0, 1#64 <<< i.val⟩) : ∀ x : W, P ⟨0, x⟩ := by
  intro x
  have := span0 (P := fun s => P ⟨s.s1, s.s0⟩) h0 (fun s t hs ht => hadd _ _ hs ht) hb 64 (by omega) x
    (fun j hj => BitVec.getLsbD_of_ge x j hj)
  exact this

/-- What holds of the 128 states with one bit, and is kept by sums, holds of all states. -/
theorem span {P : Xoro → Prop} (h0 : P Xoro.zero) (hadd : ∀ s t, P s → P t → P (s.add t))
    (hx : ∀ i : Fin 64, P ⟨1#64 <<< i.val, 0⟩) (hy : ∀ i : Fin 64, P ⟨0, 1#64 <<< i.val⟩)
    (s : Xoro) : P s := by
  have := hadd _ _ (span0 h0 hadd hx 64 (by omega) s.s0 (fun j hj => BitVec.getLsbD_of_ge _ j hj))
    (span1 h0 hadd hy s.s1)
  simpa [Xoro.add] using this

theorem act_poly0 : ∀ i : Fin 64, act 129 xoroPoly ⟨1#64 <<< i.val, 0⟩ = Xoro.zero := by
  decide +kernel

theorem act_poly1 : ∀ i : Fin 64, act 129 xoroPoly ⟨0, 1#64 <<< i.val⟩ = Xoro.zero := by
  decide +kernel

theorem act_poly (s : Xoro) : act 129 xoroPoly s = Xoro.zero := by
  refine span (P := fun s => act 129 xoroPoly s = Xoro.zero) (act_zero _ _) ?_ act_poly0 act_poly1 s
  intro s t hs ht
  rw [act_add, hs, ht, xoroAdd_self]

/-! ### Multiplication of polynomials -/

/-- Multiplication by `x`. -/
def mulX (a : Nat) : Nat :=
  Nat.xor (Nat.mul 2 a) (Nat.mul (Nat.mod (Nat.shiftRight a 127) 2) xoroPoly)

/-- Product of `a` and the `k` lowest coefficients of `b`. -/
def mulMod : Nat → Nat → Nat → Nat
  | 0, _, _ => 0
  | k + 1, a, b => Nat.xor (Nat.mul (Nat.mod b 2) a) (mulMod k (mulX a) (Nat.div b 2))

theorem act_mod_two_mul (k c a : Nat) (s : Xoro) :
    act k (c % 2 * a) s = term (c.testBit 0) (act k a s) := by
  rw [Nat.testBit_zero]
  rcases Nat.mod_two_eq_zero_or_one c with h | h <;> rw [h]
  · simp [term, act_zero_poly]
  · simp [term]

theorem act_mulX (a : Nat) (s : Xoro) : act 128 (mulX a) s = xoroStep (act 128 a s) := by
  have e : mulX a = (2 * a) ^^^ ((a >>> 127) % 2 * xoroPoly) := rfl
  have h129 : act 129 (mulX a) s = xoroStep (act 128 a s) := by
    rw [e, act_xor, act_double, act_mod_two_mul, act_poly]
    cases (a >>> 127).testBit 0 <;> simp [term, xoroAdd_zero]
  have hbit : (mulX a).testBit 128 = false := by
    rw [e, Nat.testBit_xor]
    have h1 : (2 * a).testBit 128 = a.testBit 127 := by
      rw [Nat.testBit_succ]; congr 1; omega
    have h2 : ((a >>> 127) % 2 * xoroPoly).testBit 128 = (a >>> 127).testBit 0 := by
      rw [Nat.testBit_zero]
      rcases Nat.mod_two_eq_zero_or_one (a >>> 127) with h | h <;> rw [h]
      · simp
      · decide +kernel
    rw [h1, h2, Nat.testBit_shiftRight]
    simp
  rw [← h129, act_last 128, hbit]
  simp [term, xoroAdd_zero]

theorem act_mulMod (k a b : Nat) (s : Xoro) :
    act 128 (mulMod k a b) s = act k b (act 128 a s) := by
  induction k generalizing a b with
  | zero => rw [mulMod, act_zero_poly, act]
  | succ k ih =>
    rw [mulMod]
    have e : Nat.xor (Nat.mul (Nat.mod b 2) a) (mulMod k (mulX a) (Nat.div b 2)) =
        (b % 2 * a) ^^^ mulMod k (mulX a) (b / 2) := rfl
    rw [e, act_xor, ih, act_mulX, act_mod_two_mul, act_succ k]

/-! ### Powers of the transition -/

/-- `xoroPowers[i]` is the remainder of `x ^ (2 ^ i)`. -/
def xoroPowers : List Nat := [
  0x2, 0x4,
  0x10, 0x100,
  0x10000, 0x100000000,
  0x10000000000000000, 0x653ced7f29f88a5fd66762f0e1c001,
  0xa5ee7b9c7b9ada5dafb2fae445f1749d, 0x827846355bfbbb3b6802dbe099ee01bb,
  0x63c37d001a6750c5d731c5eb2847c87a, 0xb65b85bdcaf7d3e4a8f25f75cdf4ec73,
  0x94df13fe9a4a3dcf773b99d154f5a4a1, 0xf3ad7057d1027c0fd2f80f7bad266228,
  0xe14e6f6a0668f1a09320401c0770a84a, 0xb3bbe81dc0abe24b321163bec4990ad2,
  0x2dcb073daf1ce6601e7aadfc624d3a05, 0x177e09afd576d1411c7f4743bdc5b041,
  0xaf607d0edf04c7044bd6f4c6e57da45f, 0x54cca5231f8a46494a4e597376e296ed,
  0x2aef7f2e0d57c9e69b4ede39c85dd32c, 0xbc203d8418274bcdf9220a21ae13d2a7,
  0x9b12f0a3c4fcb527269edc3c5357cd6f, 0xb2414b0892b97e225c8f6252d9389976,
  0x1ea7ed43fe3f13ed563b590e7bb99129, 0x33c81488b599b09791878f44c78831d0,
  0xe9a8a19463e84de7d41a2bed2e66fd67, 0x83ecc0767932fa49dd27992bb060c074,
  0xa15af04a352f9856530f7bd9f9875868, 0xed3aa528e75070930d801e126378c0d5,
  0xd96deee66219f0f1a4db7f6e11fbeab8, 0xbdd7533083ebc48b9a35d628478cb000,
  0x1a5037803d7c09bb6d5c8d1a4b1a701e, 0xff59f6e4033b35f20104f8616cc0c79b,
  0x5c3ad1bcee779faab00bac11efcd637b, 0x9671ccaa016bad2686d20b1c8fdcef17,
  0x4e4266602cc6d7a3302a3bfc133b7d, 0xde181a481f3e69a243df8f6dcef4971c,
  0x183cf0cf4c69f4d1188cc0b18a942b17, 0xc51c85a7cccbd84975f70097b46a43fe,
  0x6d6c7d713df634b2f4ac44d90fdfc787, 0x3960df843c7150cffc49c2b3247583fa,
  0x46a9d0b942ffe73d7b504f1beabb78bf, 0xa5af906ee021730572508f2e6dd18616,
  0xeedcbf45b601c4a16c6d3e7725fc1873, 0xc3b06177b3e723dbec61e7c8474be010,
  0xa1f6add22064247233c3edf674e47add, 0x923735153e367b100aab4e02e1ae31a8,
  0x5a01777ce2fb65b136f191bfb7ba6a97, 0xb1ce875557d288ee21c5d6c2edfc677e,
  0xdd37d17e9c46a0409ccd91215a6b57f6, 0xd3caf896d961b2c1176648688e6c233,
  0x6f7e1ce5e1b6100ef9fad157f50b0174, 0xc5a8a255ab7c125802659e3be0feeead,
  0xbbfe69d53c420322e36a86f91a3ffd07, 0x890f6920c9d3e25ccd3c431b44d87d74,
  0x6c960ca585e817491057e07b98d0827c, 0xbb39d0e32e0d50c72a229e94964032bc,
  0x205f8076a9621b150320ab2e28d60300, 0x58e6899fca65a30b4aff86c90aa5de02,
  0x65b91aee3fc75b68388faa8a921d602, 0x3872eccc97677a95fb0c2d93ffcf2091,
  0x8019f0cf875b640ec78fe2a8ab69f8f8, 0xe6b3aa7a241507b0c6e486df89d83675,
  0xd86b048b86aa9922beac0467eba5facb, 0x5c1e8b64735a759a9c74e1ec81b738e3,
  0xe2ae739d156bf07343f5a2866ee94ad5, 0xcda4db601d9b351e22ba0d03e2847ffe,
  0x46d4be289a272b8e049551ed863b5af2, 0x744b46e3c81ef816030083b6ced91bd9,
  0xf0092b585aec74555692248c8bfbe5cb, 0x9820a93b2334688e36a241684293dc91,
  0xd40343d148b9a73ccccfd85960258c75, 0x604885cf1a502dc1e0b8e64c67cda36c,
  0x7c3c379b7760c7b206613bb41517815a, 0x6ff097b789ab954b532e5fbe399401e2,
  0x72b44d34161f8f669183cae7615f4401, 0xf3fef2e1c669d3fa753ca9f03d0813ac,
  0xdadbdf0b53e0655c6c1c2228a741cc65, 0xa924dceba7eca3a19f7dfea760163a85,
  0x86b536afc98841e94dc4a0e7b85be058, 0x8c716c5d088c17f7300670f3694d5f98,
  0x8f828a095c97c1d5a337622cd896e62a, 0x2a5450f370c26c00819d0c8851468602,
  0xdffda9e17564bafb6cd504d521a829db, 0x32c6c72eece48af3865929dd0cf099f8,
  0xc3a44c299a0921df515f0b2922ce1695, 0x94a6efd05f6b6749569943bff4992ce6,
  0x293416bf4c9d5cddafb35eab3476bee5, 0xfd2dd84585efd63eafd9fd0d1157af85,
  0xce0d2f61c04c6d6bf716a9b88762474e, 0xa6d29a735f20608f0f902e5a31c4553e,
  0x1a8a5ec7f21fe5c0ea5069db9cf80080, 0xb5ef80e7e2fe61efc65194821a5c84ee,
  0xeb4a55ce38f4fa0886dac360270567bd, 0xd9047a7c66a1c40813808988bf6970e,
  0xf2deac28bef3bb0718f7c399ccebda8d, 0xe12a47d641175b6e3ca1ed1e42dce333,
  0xbafc62fc0290c4ed15fed830f0963680, 0x61261345c895d245c18f994000dc1287,
  0xb9c2d59735aa7e263fd897ec6afd0b22, 0x421b6d54059949dce899f639a24dce0f,
  0x9e5ac4eb43a870301612889dd81ee3f1, 0xabab8fdf00def644437c6d3bf3d8b36a,
  0x77d2c7d1914fee7d40d75973e18e8408, 0x14b0973dde3a777a853e42a6f80a4fbf,
  0x719403394b2e13f5fbd71a376f8c8315, 0xbd6dd0aa93c153222abfd3ef556648f3,
  0x9d96316a0e9076d6a15f259010ce855f, 0x48265b8ed33a8cf4202f7289201be8c,
  0x1b12c77bb59d40660aa8aa10a0550fa3, 0x70676bf12995fa1389b692a9f7c65b13,
  0x7933af6e440aaa3a096e65369bb8ec1e, 0x7c877f6425d868765c654c9e9d0e3d6c,
  0x48adb2900ab7f4182b0c83a8753ac4a2, 0xa283286b8f81431fc193679716ec2098,
  0xb57afc7537e0220a02b00b3edf2a3a12, 0xdd1a46c3436ab55c4a608f32d8d0cd9f,
  0x91160f2eb06014a65991fcbb72206592, 0x802649e503a11b2685d56e06f3da10ac,
  0x548cef58c31a2a7762a5681423a34864, 0xfb582241c2f5c600571859f2e2f2af84,
  0x1035a40d6ee3496d54ba6e9aea3c0c50, 0xebbce74caf217827c30430d0a96426d6,
  0xdb1bf3b8b700c5f72d6140605c2290a6, 0x73199db79cb40400b7298798965f3fae,
  0x46efdc341e668c7379440bda7ffc59c3, 0x3452305ec44ed7bc3bfcc5534423dadb,
  0x2]

/-- Each element is the square of the previous one. -/
def chainOk : List Nat → Bool
  | a :: b :: ts => Nat.beq (mulMod 128 a a) b && chainOk (b :: ts)
  | _ => true

theorem xoroPowers_chain : chainOk xoroPowers = true := by decide +kernel

theorem act_chain : ∀ (ts : List Nat) (n : Nat), chainOk ts = true →
    (∀ a, ts.head? = some a → ∀ s, act 128 a s = xoroStep^[n] s) →
    ∀ i (hi : i < ts.length) s, act 128 ts[i] s = xoroStep^[n * 2 ^ i] s := by
  intro ts
  induction ts with
  | nil => intro n _ _ i hi; simp at hi
  | cons a ts ih =>
    intro n hc hh i hi s
    cases i with
    | zero => simpa using hh a rfl s
    | succ i =>
      cases ts with
      | nil => simp at hi
      | cons b ts =>
        rw [chainOk, Bool.and_eq_true] at hc
        have hb : mulMod 128 a a = b := Nat.eq_of_beq_eq_true hc.1
        have := ih (n * 2) hc.2 (by
          intro c hcb s
          simp only [List.head?_cons, Option.some.injEq] at hcb
          rw [← hcb, ← hb, act_mulMod, hh a rfl, hh a rfl, Nat.mul_two, Function.iterate_add_apply])
          i (by simpa using hi) s
        rw [List.getElem_cons_succ, this, Nat.pow_succ, Nat.mul_assoc, Nat.mul_comm 2]

theorem act_x (s : Xoro) : act 128 2 s = xoroStep^[1] s := by
  rw [act_succ, act_succ]
  show (term (Nat.testBit 2 0) s).add ((term (Nat.testBit 1 0) (xoroStep s)).add (act 126 0 _)) = _
  rw [act_zero_poly]
  simp [term, xoroAdd_zero, zero_xoroAdd]

theorem act_one (s : Xoro) : act 128 1 s = s := by
  rw [act_succ]
  show (term (Nat.testBit 1 0) s).add (act 127 0 _) = _
  rw [act_zero_poly]
  simp [term, xoroAdd_zero]

theorem act_powers (i : Nat) (hi : i < 129) (s : Xoro) :
    act 128 (xoroPowers[i]'hi) s = xoroStep^[2 ^ i] s := by
  have := act_chain xoroPowers 1 xoroPowers_chain (by
    intro a ha s
    have : a = 2 := (Option.some.inj ha).symm
    rw [this]; exact act_x s) i hi s
  rwa [Nat.one_mul] at this

/-- The `2 ^ 128`-th power of the transition is the transition. -/
theorem xoroStep_iter_pow (s : Xoro) : xoroStep^[2 ^ 128] s = xoroStep s := by
  have h := act_powers 128 (by omega) s
  have e : act 128 2 s = xoroStep^[2 ^ 128] s := h
  rw [← e, act_x]; rfl

/-- The number of nonzero states. -/
def xoroN : Nat := 2 ^ 128 - 1

theorem xoroStep_injective : Function.Injective xoroStep := xoroNext_injective

theorem xoroStep_iter_N (s : Xoro) : xoroStep^[xoroN] s = s := by
  apply xoroStep_injective
  rw [← Function.iterate_succ_apply' xoroStep, ← xoroStep_iter_pow s]
  rfl

/-- Product of the elements of the list at the positions of the ones of `k`. -/
def prodPow (k : Nat) : List Nat → Nat
  | [] => 1
  | t :: ts => match Nat.beq (Nat.mod k 2) 1 with
    | true => mulMod 128 t (prodPow (Nat.div k 2) ts)
    | false => prodPow (Nat.div k 2) ts

theorem act_prodPow : ∀ (ts : List Nat) (k n : Nat), k < 2 ^ ts.length →
    (∀ i (hi : i < ts.length) s, act 128 ts[i] s = xoroStep^[n * 2 ^ i] s) →
    ∀ s, act 128 (prodPow k ts) s = xoroStep^[n * k] s := by
  intro ts
  induction ts with
  | nil =>
    intro k n hk _ s
    have : k = 0 := by simpa using hk
    subst this
    simpa [prodPow] using act_one s
  | cons t ts ih =>
    intro k n hk h s
    have hrest := ih (k / 2) (n * 2) (by rw [List.length_cons, Nat.pow_succ] at hk; omega) (by
      intro i hi s
      have := h (i + 1) (by simpa using hi) s
      rw [List.getElem_cons_succ] at this
      rw [this, Nat.pow_succ, Nat.mul_assoc, Nat.mul_comm 2])
    have ht := h 0 (by simp)
    simp only [List.getElem_cons_zero, Nat.pow_zero, Nat.mul_one] at ht
    rw [prodPow]
    have e1 : (Nat.mod k 2) = k % 2 := rfl
    have e2 : (Nat.div k 2) = k / 2 := rfl
    rw [e1, e2]
    rcases Nat.mod_two_eq_zero_or_one k with hm | hm
    · rw [hm]
      show act 128 (prodPow (k / 2) ts) s = _
      rw [hrest]
      congr 1
      rw [Nat.mul_assoc]; congr 1; omega
    · rw [hm]
      show act 128 (mulMod 128 t (prodPow (k / 2) ts)) s = _
      rw [act_mulMod, hrest, ht, ← Function.iterate_add_apply]
      have e3 : n * 2 * (k / 2) + n = n * k := by
        conv_rhs => rw [← Nat.div_add_mod k 2, hm]
        rw [Nat.mul_assoc, Nat.mul_add, Nat.mul_one]
      rw [e3]

theorem xoroPowers_length : xoroPowers.length = 129 := by decide +kernel

theorem act_power (k : Nat) (hk : k < 2 ^ 129) (s : Xoro) :
    act 128 (prodPow k xoroPowers) s = xoroStep^[k] s := by
  have := act_prodPow xoroPowers k 1 (by rw [xoroPowers_length]; exact hk)
    (fun i hi s => by rw [Nat.one_mul]; exact act_powers i hi s) s
  rwa [Nat.one_mul] at this

/-- If `x ^ k - 1` is invertible, only the zero state is fixed by `k` transitions. -/
theorem noFix {k : Nat} (hu : ∃ u, (Nat.ble k (2 ^ 128) &&
      Nat.beq (mulMod 128 (Nat.xor 1 (prodPow k xoroPowers)) u) 1) = true) (s : Xoro) (h : xoroStep^[k] s = s) : s = Xoro.zero := by
  obtain ⟨u, hu⟩ := hu
  rw [Bool.and_eq_true] at hu
  have hk : k < 2 ^ 129 := by
    have := Nat.le_of_ble_eq_true hu.1
    have e : (2 : Nat) ^ 129 = 2 * 2 ^ 128 := by decide
    have : 0 < (2 : Nat) ^ 128 := by decide
    omega
  have e := act_mulMod 128 (1 ^^^ prodPow k xoroPowers) u s
  have e1 : mulMod 128 (1 ^^^ prodPow k xoroPowers) u = 1 := Nat.eq_of_beq_eq_true hu.2
  rw [e1, act_one, act_xor, act_one, act_power k hk, h, xoroAdd_self, act_zero] at e
  exact e

/-! ### The factors of the number of nonzero states -/

theorem prime_last : Nat.Prime 67280421310721 := by
  apply lucas_primality 67280421310721 (3 : ZMod 67280421310721)
  · norm_num; reduce_mod_char
  · intro q hq hd
    have hfac : (67280421310721 - 1 : ℕ) = 2 ^ 8 * (5 * (47 * (373 * 2998279))) := by norm_num
    rw [hfac] at hd
    have hcases : q = 2 ∨ q = 5 ∨ q = 47 ∨ q = 373 ∨ q = 2998279 := by
      rcases (Nat.Prime.dvd_mul hq).mp hd with h | h
      · exact Or.inl ((Nat.prime_dvd_prime_iff_eq hq (by norm_num)).mp (hq.dvd_of_dvd_pow h))
      rcases (Nat.Prime.dvd_mul hq).mp h with h | h
      · exact Or.inr (Or.inl ((Nat.prime_dvd_prime_iff_eq hq (by norm_num)).mp h))
      rcases (Nat.Prime.dvd_mul hq).mp h with h | h
      · exact Or.inr (Or.inr (Or.inl ((Nat.prime_dvd_prime_iff_eq hq (by norm_num)).mp h)))
      rcases (Nat.Prime.dvd_mul hq).mp h with h | h
      · exact Or.inr (Or.inr (Or.inr (Or.inl ((Nat.prime_dvd_prime_iff_eq hq (by norm_num)).mp h))))
      · exact Or.inr (Or.inr (Or.inr (Or.inr ((Nat.prime_dvd_prime_iff_eq hq (by norm_num)).mp h))))
    intro hone
    have hne : ∀ n : ℕ, n ≠ 0 → n < 67280421310721 → (n : ZMod 67280421310721) ≠ 0 := by
      intro n h0 hn h
      have := (ZMod.natCast_eq_zero_iff n 67280421310721).mp h
      exact absurd (Nat.le_of_dvd (by omega) this) (by omega)
    rcases hcases with rfl | rfl | rfl | rfl | rfl
    · norm_num at hone
      rw [← sub_eq_zero] at hone
      reduce_mod_char at hone
      exact hne 67280421310719 (by norm_num) (by norm_num) (by exact_mod_cast hone)
    · norm_num at hone
      rw [← sub_eq_zero] at hone
      reduce_mod_char at hone
      exact hne 8348471219630 (by norm_num) (by norm_num) (by exact_mod_cast hone)
    · norm_num at hone
      rw [← sub_eq_zero] at hone
      reduce_mod_char at hone
      exact hne 29801263682153 (by norm_num) (by norm_num) (by exact_mod_cast hone)
    · norm_num at hone
      rw [← sub_eq_zero] at hone
      reduce_mod_char at hone
      exact hne 65541179653180 (by norm_num) (by norm_num) (by exact_mod_cast hone)
    · norm_num at hone
      rw [← sub_eq_zero] at hone
      reduce_mod_char at hone
      exact hne 61150258807255 (by norm_num) (by norm_num) (by exact_mod_cast hone)

def xoroPrimes : List Nat :=
  [3, 5, 17, 257, 641, 65537, 274177, 6700417, 67280421310721]

theorem prime_dvd_xoroN {q : Nat} (hq : q.Prime) (h : q ∣ xoroN) : q ∈ xoroPrimes := by
  have hN : xoroN = 3 * (5 * (17 * (257 * (641 * (65537 * (274177 * (6700417 * 67280421310721))))))) := by
    decide
  rw [hN] at h
  have step : ∀ p r, p.Prime → q ∣ p * r → q = p ∨ q ∣ r := fun p r hp h =>
    ((Nat.Prime.dvd_mul hq).mp h).imp (Nat.prime_dvd_prime_iff_eq hq hp).mp id
  unfold xoroPrimes
  rcases step _ _ (by norm_num) h with h | h
  · simp [h]
  rcases step _ _ (by norm_num) h with h | h
  · simp [h]
  rcases step _ _ (by norm_num) h with h | h
  · simp [h]
  rcases step _ _ (by norm_num) h with h | h
  · simp [h]
  rcases step _ _ (by norm_num) h with h | h
  · simp [h]
  rcases step _ _ (by norm_num) h with h | h
  · simp [h]
  rcases step _ _ (by norm_num) h with h | h
  · simp [h]
  rcases step _ _ (by norm_num) h with h | h
  · simp [h]
  · have := (Nat.prime_dvd_prime_iff_eq hq prime_last).mp h
    simp [this]

/-- No nonzero state is fixed by `(2 ^ 128 - 1) / q` transitions, `q` prime. -/
theorem noFix_prime {q : Nat} (hq : q ∈ xoroPrimes) (s : Xoro)
    (h : xoroStep^[xoroN / q] s = s) : s = Xoro.zero := by
  simp only [xoroPrimes, List.mem_cons, List.not_mem_nil, or_false] at hq
  rcases hq with rfl | rfl | rfl | rfl | rfl | rfl | rfl | rfl | rfl
  · exact noFix ⟨0xff8cefb76846895353ca0f0fe69d9ac1, by decide +kernel⟩ s h
  · exact noFix ⟨0x44746645e1e994f5f0fe77cc421dfaaa, by decide +kernel⟩ s h
  · exact noFix ⟨0x32c47704c6cdf7931acf2a818a19f62d, by decide +kernel⟩ s h
  · exact noFix ⟨0x96f288cba5870497fd983bf5d14bdbeb, by decide +kernel⟩ s h
  · exact noFix ⟨0xa7e437605ed5e3ae3e409dba24fc1dcd, by decide +kernel⟩ s h
  · exact noFix ⟨0xecb57a9ef6f5a6fff4387293b32f3b0c, by decide +kernel⟩ s h
  · exact noFix ⟨0xe9e260cf9faf324aeb4d0d5da638cf50, by decide +kernel⟩ s h
  · exact noFix ⟨0x14ca8334099b25f5a6585d516b1fd6f1, by decide +kernel⟩ s h
  · exact noFix ⟨0x139bd4d8ba1f6134c128219c7d36e79d, by decide +kernel⟩ s h

/-- A point of period `2 ^ 128 - 1` is of least period `2 ^ 128 - 1` unless it has a period
`(2 ^ 128 - 1) / q` for a prime `q`. -/
theorem minimalPeriod_eq_xoroN {α : Type*} (f : α → α) (x : α) (hN : f^[xoroN] x = x)
    (h : ∀ q ∈ xoroPrimes, f^[xoroN / q] x ≠ x) : Function.minimalPeriod f x = xoroN := by
  have hdvd : Function.minimalPeriod f x ∣ xoroN := Function.IsPeriodicPt.minimalPeriod_dvd hN
  by_contra hne
  obtain ⟨k, hk⟩ := hdvd
  have hk1 : k ≠ 1 := by rintro rfl; exact hne (by omega)
  obtain ⟨q, hq, hqk⟩ := Nat.exists_prime_and_dvd hk1
  obtain ⟨j, hj⟩ := hqk
  have hqN : q ∣ xoroN := ⟨Function.minimalPeriod f x * j, by rw [hk, hj, Nat.mul_left_comm]⟩
  have hdiv : xoroN / q = Function.minimalPeriod f x * j := by
    rw [hk, hj, Nat.mul_left_comm, Nat.mul_div_cancel_left _ hq.pos]
  refine h q (prime_dvd_xoroN hq hqN) ?_
  rw [hdiv]
  exact (Function.isPeriodicPt_minimalPeriod f x).mul_const j

theorem xoroStep_minimalPeriod {s : Xoro} (hs : s ≠ Xoro.zero) :
    Function.minimalPeriod xoroStep s = xoroN :=
  minimalPeriod_eq_xoroN xoroStep s (xoroStep_iter_N s) fun _ hq h => hs (noFix_prime hq s h)

/-- States are pairs of words. -/
def xoroEquiv : Xoro ≃ Fin (2 ^ 64) × Fin (2 ^ 64) :=
  ⟨fun s => (s.s0.toFin, s.s1.toFin), fun p => ⟨⟨p.1⟩, ⟨p.2⟩⟩, fun _ => rfl, fun _ => rfl⟩

noncomputable instance : Fintype Xoro := Fintype.ofEquiv _ xoroEquiv.symm

theorem card_nonzero : Fintype.card {s : Xoro // s ≠ Xoro.zero} = xoroN := by
  rw [Fintype.card_subtype_compl, Fintype.card_subtype_eq, Fintype.card_congr xoroEquiv,
    Fintype.card_prod, Fintype.card_fin]
  decide

/-- Every nonzero state leads to every other one. -/
theorem xoroStep_orbit {s t : Xoro} (hs : s ≠ Xoro.zero) (ht : t ≠ Xoro.zero) :
    ∃ n, n < xoroN ∧ xoroStep^[n] s = t := by
  have hiter : ∀ n, xoroStep^[n] s ≠ Xoro.zero := by
    intro n h
    have hz : xoroStep^[n] Xoro.zero = Xoro.zero := by
      rw [← xoroIter_eq]; exact xoroIter_zero n
    exact hs (xoroStep_injective.iterate n (h.trans hz.symm))
  let f : Fin xoroN → {s : Xoro // s ≠ Xoro.zero} := fun n => ⟨xoroStep^[n.val] s, hiter n.val⟩
  have hinj : Function.Injective f := by
    intro a b hab
    have e : xoroStep^[a.val] s = xoroStep^[b.val] s := congrArg Subtype.val hab
    have hm := xoroStep_minimalPeriod hs
    have := (Function.iterate_eq_iterate_iff_of_lt_minimalPeriod (f := xoroStep) (x := s)
      (by rw [hm]; exact a.isLt) (by rw [hm]; exact b.isLt)).mp e
    exact Fin.ext this
  have hbij := (Fintype.bijective_iff_injective_and_card f).mpr
    ⟨hinj, by rw [card_nonzero, Fintype.card_fin]⟩
  obtain ⟨n, hn⟩ := hbij.2 ⟨t, ht⟩
  exact ⟨n.val, n.isLt, congrArg Subtype.val hn⟩

/-- For every prime factor some value is not repeated after `(2 ^ 128 - 1) / q` calls. -/
theorem xoroOut_prime {q : Nat} (hq : q ∈ xoroPrimes) :
    (xoroNext (xoroStep^[xoroN / q] ⟨1, 0⟩)).2 ≠ (xoroNext ⟨1, 0⟩).2 := by
  rw [← act_power _ (lt_of_le_of_lt (Nat.div_le_self _ _) (by decide))]
  simp only [xoroPrimes, List.mem_cons, List.not_mem_nil, or_false] at hq
  rcases hq with rfl | rfl | rfl | rfl | rfl | rfl | rfl | rfl | rfl <;> decide +kernel

end Actl.Random
