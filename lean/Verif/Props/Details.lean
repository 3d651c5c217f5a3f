import Verif.Props.Random
import Verif.Props.Winding
import Verif.Props.Iterators
import Verif.Props.Containers
import Verif.Props.Convert

/-!
Values that the theorems about the same functions leave open: the word that the generator returns (C06), the number that stands for the
border (C62), unsigned steps (C75), the state of exhausted limited input (C77), an overdrawn queue (C28), tuples of several arguments
(C81).
-/

namespace Actl.Random

/-- **C06** The word returned is the sum of the two words of the state, plus one if the sum of the words of the next state does not fit
into 64 bits. -/
theorem xoro_output (s : Xoro) :
    (xoroNext s).2.toNat =
      (s.s0.toNat + s.s1.toNat + ((xoroNext s).1.s0.toNat + (xoroNext s).1.s1.toNat) / 2 ^ 64) % 2 ^ 64 := by
  have key : ∀ a b x y : W, (a + b + (if x + y < y then 1#64 else 0#64)).toNat =
      (a.toNat + b.toNat + (x.toNat + y.toNat) / 2 ^ 64) % 2 ^ 64 := by
    intro a b x y
    have hx := x.isLt
    have hy := y.isLt
    have hlt : x + y < y ↔ 2 ^ 64 ≤ x.toNat + y.toNat := by
      rw [BitVec.lt_def, BitVec.toNat_add]
      omega
    by_cases h : x + y < y
    · rw [if_pos h, BitVec.toNat_add, BitVec.toNat_add]
      have := hlt.mp h
      simp only [BitVec.toNat_ofNat]
      omega
    · rw [if_neg h, BitVec.toNat_add, BitVec.toNat_add]
      have := mt hlt.mpr h
      simp only [BitVec.toNat_ofNat]
      omega
  exact key _ _ _ _

example : (xoroNext ⟨1, 2⟩).2 = 3 ∧
    (xoroNext ⟨3356503631989613313, 886142643397976323⟩).2 = 3356503631989613313 + 886142643397976323 + 1 := by decide +kernel

end Actl.Random

namespace Actl.Geo

variable {F : Type} [Field F] [LinearOrder F] [IsStrictOrderedRing F]

/-- **C62** The winding number of a point on the border is the greatest `int`, and of no other point of a polygon with fewer vertices. -/
theorem winding_border_value (p : Vec F 2) (poly : List (Vec F 2)) (hn : (poly.length : Int) < 2147483647) :
    windingNumber p poly = 2147483647 ↔ OnBorder p poly := winding_border p poly hn

end Actl.Geo

namespace Actl.Iterators

open Actl.Ints

/-- **C75** With an unsigned type of at least 32 bits for position and step, advancing by a signed offset that is not wider is addition
modulo the number of values, so exact where the result is a value of the type. -/
theorem advance_unsigned_step {w : Nat} (hw : 32 ≤ w) {D : IntT} (hD : D.promote.signed = true) (hd : D.promote.width ≤ w)
    (step v offset : Int) :
    advance ⟨false, w⟩ ⟨false, w⟩ D step v offset = some ((v + offset * step) % 2 ^ w) ∧
      ((⟨false, w⟩ : IntT).Has (v + offset * step) → advance ⟨false, w⟩ ⟨false, w⟩ D step v offset = some (v + offset * step)) := by
  have e : (⟨false, w⟩ : IntT).promote = ⟨false, w⟩ := promote_wide _ hw
  have ec : common D ⟨false, w⟩ = ⟨false, w⟩ := by
    unfold common
    rw [e, hD]
    simp [hd]
  have ec' : common ⟨false, w⟩ ⟨false, w⟩ = ⟨false, w⟩ := by
    unfold common
    rw [e]
    simp
  have hc : ∀ x, (⟨false, w⟩ : IntT).cast x = x % 2 ^ w := fun x => by simp [IntT.cast, IntT.lo]
  have h1 : advance ⟨false, w⟩ ⟨false, w⟩ D step v offset = some ((v + offset * step) % 2 ^ w) := by
    unfold advance
    simp only [ec, ec', IntT.arith, Bool.false_eq_true, if_false, hc, Option.some.injEq]
    simp only [Int.emod_emod, Int.add_emod, Int.mul_emod]
  refine ⟨h1, fun h => ?_⟩
  rw [h1]
  unfold IntT.Has IntT.lo IntT.hi at h
  simp only [Bool.false_eq_true, if_false] at h
  rw [Int.emod_eq_of_lt h.1 h.2]

example : advance ⟨false, 32⟩ ⟨false, 32⟩ ⟨true, 32⟩ 7 100 (-3) = some 79 ∧
    advance ⟨false, 32⟩ ⟨false, 32⟩ ⟨true, 32⟩ 7 10 (-3) = some (2 ^ 32 - 11) := by decide +kernel

/-- **C77** Incremented as often as its limit allows, the iterator is at the end, has taken no more from the stream, and cannot be
incremented again. -/
theorem limited_used_up {α : Type} : ∀ (n : Nat) (stream : List α), 0 < n → n ≤ stream.length →
    (fun o : Option (Limited α) => o.bind Limited.inc)^[n] (some (limited stream n)) = some ⟨none, stream.drop n, 0⟩ ∧
      (⟨none, stream.drop n, 0⟩ : Limited α).inc = none
  | 0, _, h, _ => absurd h (lt_irrefl 0)
  | 1, [], _, h => absurd h (by simp)
  | 1, x :: xs, _, _ => ⟨by simp [limited, Limited.inc], by simp [Limited.inc]⟩
  | n + 2, [], _, h => absurd h (by simp)
  | n + 2, x :: xs, _, h => by
    obtain ⟨h1, -⟩ := limited_used_up (n + 1) xs (by omega) (by simpa using h)
    refine ⟨?_, by simp [Limited.inc]⟩
    rw [Function.iterate_succ_apply]
    have hinc : (some (limited (x :: xs) (n + 2 : Nat))).bind Limited.inc = some (limited xs (n + 1 : Nat)) := by
      simp only [Option.bind_some, limited, Limited.inc, List.head?_cons, List.tail_cons]
      rw [if_neg (by omega), if_pos (by omega)]
      congr 2
      omega
    rw [hinc, h1]
    rfl

example : (limited [4, 5, 6] 2).inc.bind Limited.inc = some ⟨none, [6], 0⟩ := by rfl

end Actl.Iterators

namespace Actl.Containers

/-- **C28** (negation) Where assertions are off, popping an empty `vector_as_queue` makes its size huge, and it is not empty any more. -/
theorem vecQueue_overdrawn_fails {α : Type} (q : VecQueue α) (hq : q.begin = q.vec.length) (k : Nat) (hk : 0 < k) :
    run VecQueue.step q (List.replicate k .pop ++ [.size, .empty]) =
      some (List.replicate k .unit ++ [.nat (2 ^ 64 - k), .bool false]) := by
  have key : ∀ (k j : Nat) (q : VecQueue α), q.begin = q.vec.length + j → 0 < k + j →
      run VecQueue.step q (List.replicate k .pop ++ [.size, .empty]) =
        some (List.replicate k .unit ++ [.nat (2 ^ 64 - (k + j)), .bool false]) := by
    intro k
    induction k with
    | zero =>
      intro j q h hj
      have h1 : ¬q.begin ≤ q.vec.length := by omega
      have h2 : q.begin - q.vec.length = 0 + j := by omega
      have h3 : (q.begin == q.vec.length) = false := by
        rw [beq_eq_false_iff_ne]; omega
      simp only [List.replicate_zero, List.nil_append, run, VecQueue.step, if_neg h1, h2, h3]
    | succ k ih =>
      intro j q h hj
      have := ih (j + 1) { q with begin := q.begin + 1 } (by show q.begin + 1 = q.vec.length + (j + 1); omega) (by omega)
      simp only [List.replicate_succ, List.cons_append, run, VecQueue.step, this]
      congr 6
      omega
  have := key k 0 q hq (by omega)
  simpa using this

example : run VecQueue.step (⟨[], 0⟩ : VecQueue Nat) [.push 5, .pop, .pop, .size] =
    some [.unit, .unit, .unit, .nat (2 ^ 64 - 1)] := by rfl

end Actl.Containers

namespace Actl.Convert

theorem can_stable {t : Ty} {args : List Ty} {n m : Nat} (hn : t.size + Ty.sizeAll args < n) (hm : n ≤ m) :
    can m t args = can n t args := by
  induction m, hm using Nat.le_induction with
  | base => rfl
  | succ m hm ih => rw [← can_fuel m t args (by omega), ih]

theorem conv_stable {t : Ty} {args : List (Ty × Val)} {n m : Nat} (hn : t.size + Ty.sizeAll (args.map Prod.fst) < n) (hm : n ≤ m) :
    conv m t args = conv n t args := by
  induction m, hm using Nat.le_induction with
  | base => rfl
  | succ m hm ih => rw [← conv_fuel m t args (by omega), ih]

theorem mapAll_of_forall {α β : Type} {f : α → Option β} {l : List α} {r : List β}
    (h : List.Forall₂ (fun x y => f x = some y) l r) : mapAll f l = some r := by
  induction h with
  | nil => rfl
  | cons h1 _ ih => simp [mapAll, h1, ih]

/-- **C81** Two or more arguments make a tuple of as many elements, each converted on its own. -/
theorem convert_each (ts : List Ty) (args : List (Ty × Val)) (vs : List Val) (h2 : 2 ≤ args.length) (hl : ts.length = args.length)
    (h : List.Forall₂ (fun p v => convertTo p.1 [p.2] = some v) (ts.zip args) vs) :
    convertTo (.tuple ts) args = some (.seq vs) := by
  have hsize : ∀ p ∈ ts.zip args, p.1.size + (1 + p.2.1.size + 0) + 1 ≤ (1 + Ty.sizeAll ts) + Ty.sizeAll (args.map Prod.fst) := by
    intro p hp
    have h1 := size_mem ts p.1 (List.of_mem_zip hp).1
    have h2 := size_mem (args.map Prod.fst) p.2.1 (List.mem_map_of_mem (List.of_mem_zip hp).2)
    omega
  have hone : ∀ p ∈ ts.zip args, ∀ v, convertTo p.1 [p.2] = some v →
      can ((1 + Ty.sizeAll ts) + Ty.sizeAll (args.map Prod.fst)) p.1 [p.2.1] = true ∧
      conv ((1 + Ty.sizeAll ts) + Ty.sizeAll (args.map Prod.fst)) p.1 [p.2] = some v := by
    intro p hp v hv
    unfold convertTo at hv
    simp only [List.map_cons, List.map_nil, Ty.sizeAll] at hv
    split at hv
    · rename_i hc
      have := hsize p hp
      rw [can_stable (n := p.1.size + (1 + p.2.1.size + 0) + 1) (by simp only [Ty.sizeAll]; omega) (by omega),
        conv_stable (n := p.1.size + (1 + p.2.1.size + 0) + 1) (by simp only [List.map_cons, List.map_nil, Ty.sizeAll]; omega)
          (by omega)]
      exact ⟨hc, hv⟩
    · cases hv
  obtain ⟨a, b, rest, rfl⟩ : ∃ a b rest, args = a :: b :: rest := by
    match args, h2 with
    | a :: b :: rest, _ => exact ⟨a, b, rest, rfl⟩
  have hmap : mapAll (fun p => conv ((1 + Ty.sizeAll ts) + Ty.sizeAll ((a :: b :: rest).map Prod.fst)) p.1 [p.2])
      (ts.zip (a :: b :: rest)) = some vs := by
    refine mapAll_of_forall ?_
    refine (List.forall₂_iff_zip.mpr ⟨h.length_eq, ?_⟩)
    intro p v hp
    have hv := (List.forall₂_iff_zip.mp h).2 hp
    exact (hone p (List.of_mem_zip hp).1 v hv).2
  have hcan : ((ts.zip ((a :: b :: rest).map Prod.fst)).all fun p =>
      can ((1 + Ty.sizeAll ts) + Ty.sizeAll ((a :: b :: rest).map Prod.fst)) p.1 [p.2]) = true := by
    rw [List.all_eq_true]
    intro q hq
    rw [List.zip_map_right] at hq
    obtain ⟨p, hp, rfl⟩ := List.mem_map.mp hq
    obtain ⟨i, hi, hpi⟩ := List.mem_iff_getElem.mp hp
    have hi' : i < vs.length := by rw [← h.length_eq]; exact hi
    have hv : convertTo p.1 [p.2] = some vs[i] := by
      have := List.Forall₂.get h hi hi'
      simp only [List.get_eq_getElem] at this
      rwa [hpi] at this
    exact (hone p hp _ hv).1
  unfold convertTo
  dsimp only
  rw [Ty.size]
  rw [List.map_cons, List.map_cons] at hcan hmap ⊢
  rw [can, conv]
  · rw [canInit, init]
    rw [hmap, hcan]
    simp only [List.length_cons, List.length_map] at hl ⊢
    simp [hl]
  all_goals simp

/-- Two tuples make a tuple of two tuples. -/
example : convertTo (.tuple [.tuple [.num], .arr .num 2]) [(.tuple [.num], .seq [.num 4]), (.tuple [.num, .num], .seq [.num 5, .num 6])] =
    some (.seq [.seq [.num 4], .seq [.num 5, .num 6]]) := by rfl

end Actl.Convert
