import Verif.Spec.BinaryAssoc
import Verif.Props.Binary
import Verif.Props.Parser

/-!
# C100: sets and maps in the binary format
-/

namespace Actl.BinaryAssoc

open Actl.Text

/-! ### Constants -/

theorem zero_iff (k : Binary.Ty) (x : Binary.Val k) (h : Binary.WF k x) : Zero k x ↔ x = Binary.default k := by
  induction k with
  | unit => exact ⟨fun _ => rfl, fun _ => trivial⟩
  | arith n => exact Iff.rfl
  | pair a b iha ihb =>
    simp only [Zero, iha _ h.1, ihb _ h.2, Binary.default]
    exact ⟨fun h => Prod.ext h.1 h.2, fun h => by rw [h]; exact ⟨rfl, rfl⟩⟩
  | array n t ih =>
    simp only [Zero, Binary.default]
    refine ⟨fun hz => ?_, fun hx y hy => ?_⟩
    · exact List.eq_replicate_iff.mpr ⟨h.1, fun y hy => (ih y (h.2 y hy)).mp (hz y hy)⟩
    · have h2 := h.2 y hy
      rw [hx] at hy
      rw [ih y h2]
      exact List.eq_of_mem_replicate hy
  | vec t _ => exact Iff.rfl
  | seq t _ => exact Iff.rfl

theorem buf_ne (d : List Byte) : ∀ s ∈ (if d = [] then [] else [d]), s ≠ [] := by
  intro s h
  split at h
  · simp at h
  · simp at h; rw [h]; assumption

theorem buf_flatten (d : List Byte) : (if d = [] then [] else [d]).flatten = d := by
  split <;> simp [*]

theorem matchBytes_ok (data rest : List Byte) : matchBytes data (data ++ rest) = (true, rest) := by
  have := Parser.readConst_success data _ (buf_ne (data ++ rest)) (by rw [buf_flatten]; simp)
  rw [matchBytes, this]
  simp

theorem matchBytes_iff (data d : List Byte) : (matchBytes data d).1 = true ↔ data <+: d := by
  obtain ⟨n, ok, h1, h2, -⟩ := Parser.readConst_correct data _ (buf_ne d)
  rw [buf_flatten] at h2
  rw [matchBytes, h1]
  exact h2

theorem matchBytes_bad {data other : List Byte} (rest : List Byte) (hl : data.length = other.length) (hne : data ≠ other) :
    (matchBytes data (other ++ rest)).1 = false := by
  rw [← Bool.not_eq_true, matchBytes_iff]
  rintro ⟨s, hs⟩
  exact hne (List.append_inj_left hs hl)

/-- Matching a constant against another value of its type that has been written: success exactly for equal ones. -/
theorem matchConst_write (k : Binary.Ty) (hk : fixed k = true) (x y : Binary.Val k) (hx : Binary.WF k x) (hy : Binary.WF k y)
    (rest : List Byte) :
    (x = y → matchConst k x (Binary.write k y ++ rest) = (true, rest)) ∧
    (x ≠ y → (matchConst k x (Binary.write k y ++ rest)).1 = false) := by
  induction k generalizing rest with
  | unit => exact ⟨fun _ => rfl, fun h => absurd rfl h⟩
  | arith n =>
    simp only [matchConst, Binary.write]
    refine ⟨fun h => ?_, fun h => ?_⟩
    · rw [h]; exact matchBytes_ok _ _
    · apply matchBytes_bad
      · rw [Binary.toBytes_length, Binary.toBytes_length]
      · intro he
        apply h
        have h2 := congrArg Binary.ofBytes he
        have hlt : ∀ z : BitVec (8 * n), z.toNat < 256 ^ n := fun z => by
          have := z.isLt
          rwa [Nat.pow_mul] at this
        rw [Binary.ofBytes_toBytes _ _ (hlt x), Binary.ofBytes_toBytes _ _ (hlt y)] at h2
        exact BitVec.eq_of_toNat_eq h2
  | pair a b iha ihb =>
    simp only [fixed, Bool.and_eq_true] at hk
    simp only [matchConst, Binary.write, List.append_assoc]
    obtain ⟨a1, a2⟩ := iha hk.1 x.1 y.1 hx.1 hy.1 (Binary.write b y.2 ++ rest)
    obtain ⟨b1, b2⟩ := ihb hk.2 x.2 y.2 hx.2 hy.2 rest
    refine ⟨fun h => ?_, fun h => ?_⟩
    · rw [a1 (by rw [h])]
      exact b1 (by rw [h])
    · by_cases h1 : x.1 = y.1
      · rw [a1 h1]
        exact b2 fun h2 => h (Prod.ext h1 h2)
      · have := a2 h1
        generalize matchConst a x.1 (Binary.write a y.1 ++ (Binary.write b y.2 ++ rest)) = p at this
        obtain ⟨ok, d⟩ := p
        simp only at this
        subst this
        rfl
  | array n t ih =>
    simp only [matchConst, Binary.write]
    have hl : List.length x = List.length y := hx.1.trans hy.1.symm
    have key : ∀ (xs ys : List (Binary.Val t)), xs.length = ys.length → (∀ a ∈ xs, Binary.WF t a) →
        (∀ a ∈ ys, Binary.WF t a) →
        (xs = ys → matchAll (matchConst t) xs (Binary.writeAll (Binary.write t) ys ++ rest) = (true, rest)) ∧
        (xs ≠ ys → (matchAll (matchConst t) xs (Binary.writeAll (Binary.write t) ys ++ rest)).1 = false) := by
      intro xs
      induction xs with
      | nil =>
        intro ys hl _ _
        match ys, hl with
        | [], _ => exact ⟨fun _ => rfl, fun h => absurd rfl h⟩
      | cons a as ih2 =>
        intro ys hl hxs hys
        match ys, hl with
        | b :: bs, hl =>
          obtain ⟨a1, a2⟩ := ih hk a b (hxs a (by simp)) (hys b (by simp)) (Binary.writeAll (Binary.write t) bs ++ rest)
          obtain ⟨b1, b2⟩ := ih2 bs (by simpa using hl) (fun c hc => hxs c (by simp [hc])) (fun c hc => hys c (by simp [hc]))
          simp only [matchAll, Binary.writeAll, List.append_assoc]
          by_cases h1 : a = b
          · rw [a1 h1]
            subst h1
            simp only [List.cons.injEq, true_and, ne_eq]
            exact ⟨b1, b2⟩
          · refine ⟨fun h => absurd (List.cons.inj h).1 h1, fun _ => ?_⟩
            have := a2 h1
            generalize matchConst t a (Binary.write t b ++ (Binary.writeAll (Binary.write t) bs ++ rest)) = p at this
            obtain ⟨ok, d⟩ := p
            simp only at this
            subst this
            rfl
    exact key x y hl hx.2 hy.2
  | vec t _ => simp [fixed] at hk
  | seq t _ => simp [fixed] at hk

/-! ### Containers -/

theorem emplace_end {α : Type} {u : Bool} {less : α → α → Bool} {x : α} {ys : List α}
    (h : ∀ y ∈ ys, if u then less y x = true else less x y = false) : emplace u less x ys = ys ++ [x] := by
  induction ys with
  | nil => rfl
  | cons y ys ih =>
    have h1 := h y (by simp)
    have ih := ih fun a ha => h a (by simp [ha])
    rw [emplace, ih]
    cases u
    · simp only [Bool.false_eq_true, if_false] at h1 ⊢
      split_ifs <;> simp_all
    · simp only [if_true] at h1
      simp [h1]

theorem emplace_keeps {α : Type} {u : Bool} {less : α → α → Bool} {x : α} {ys : List α} :
    (∀ y ∈ ys, y ∈ emplace u less x ys) ∧ ∀ y ∈ emplace u less x ys, y = x ∨ y ∈ ys := by
  induction ys with
  | nil => simp [emplace]
  | cons y ys ih =>
    rw [emplace]
    split_ifs
    · refine ⟨fun a ha => ?_, fun a ha => ?_⟩
      · rcases List.mem_cons.mp ha with rfl | ha
        · simp
        · exact List.mem_cons_of_mem _ (ih.1 a ha)
      · rcases List.mem_cons.mp ha with rfl | ha
        · simp
        · rcases ih.2 a ha with h | h <;> simp [h]
    · exact ⟨fun a ha => by simp_all, fun a ha => by simpa using ha⟩
    · exact ⟨fun a ha => ha, fun a ha => .inr ha⟩
    · refine ⟨fun a ha => ?_, fun a ha => ?_⟩
      · rcases List.mem_cons.mp ha with rfl | ha
        · simp
        · exact List.mem_cons_of_mem _ (ih.1 a ha)
      · rcases List.mem_cons.mp ha with rfl | ha
        · simp
        · rcases ih.2 a ha with h | h <;> simp [h]

/-- What reading what was written does: it restores the value or fails. -/
def Outcome {α : Type} (p : Bool × α × List Byte) (good : Prop) (v : α) (rest : List Byte) : Prop :=
  (good → p = (true, v, rest)) ∧ (¬ good → p.1 = false)

theorem readEmplace_outcome {α : Type} {u : Bool} {less : α → α → Bool} {rd : α → List Byte → Bool × α × List Byte}
    {w : α → List Byte} {fresh : α} {good : α → Prop} (vs acc : List α) (rest : List Byte)
    (hrd : ∀ v ∈ vs, ∀ r, Outcome (rd fresh (w v ++ r)) (good v) v r) (hs : Sorted u less (acc ++ vs)) :
    Outcome (readEmplace (emplace u less) rd fresh vs.length acc (Binary.writeAll w vs ++ rest))
      (∀ v ∈ vs, good v) (acc ++ vs) rest := by
  induction vs generalizing acc with
  | nil => simp [Outcome, readEmplace, Binary.writeAll]
  | cons v vs ih =>
    obtain ⟨h1, h2⟩ := hrd v (by simp) (Binary.writeAll w vs ++ rest)
    have hs' : Sorted u less (acc ++ [v] ++ vs) := by simpa using hs
    have ih := ih (acc ++ [v]) (fun a ha => hrd a (by simp [ha])) hs'
    simp only [List.length_cons, readEmplace, Binary.writeAll, List.append_assoc]
    by_cases hg : good v
    · rw [h1 hg]
      simp only
      have hend : emplace u less v acc = acc ++ [v] := by
        apply emplace_end
        intro y hy
        unfold Sorted at hs
        exact (List.pairwise_append.mp hs).2.2 y hy v (by simp)
      rw [hend]
      unfold Outcome at ih ⊢
      simp only [List.forall_mem_cons, hg, true_and]
      simpa using ih
    · have hp := h2 hg
      refine ⟨fun h => absurd (h v (by simp)) hg, fun _ => ?_⟩
      generalize rd fresh (w v ++ (Binary.writeAll w vs ++ rest)) = p at hp
      obtain ⟨ok, y, d⟩ := p
      simp only at hp
      subst hp
      rfl

theorem readRange_outcome {α : Type} {rd : α → List Byte → Bool × α × List Byte}
    {w : α → List Byte} {good : α → Prop} (vs olds : List α) (rest : List Byte) (hl : olds.length = vs.length)
    (hrd : ∀ v ∈ vs, ∀ o ∈ olds, ∀ r, Outcome (rd o (w v ++ r)) (good v) v r) :
    Outcome (Binary.readRange rd olds (Binary.writeAll w vs ++ rest)) (∀ v ∈ vs, good v) vs rest := by
  induction vs generalizing olds with
  | nil =>
    match olds, hl with
    | [], _ => simp [Outcome, Binary.readRange, Binary.writeAll]
  | cons v vs ih =>
    match olds, hl with
    | o :: olds, hl =>
      obtain ⟨h1, h2⟩ := hrd v (by simp) o (by simp) (Binary.writeAll w vs ++ rest)
      obtain ⟨i1, i2⟩ := ih olds (by simpa using hl) (fun a ha b hb => hrd a (by simp [ha]) b (by simp [hb]))
      simp only [Binary.readRange, Binary.writeAll, List.append_assoc]
      by_cases hg : good v
      · rw [h1 hg]
        simp only
        unfold Outcome
        simp only [List.forall_mem_cons, hg, true_and]
        refine ⟨fun h => by rw [i1 h], fun h => ?_⟩
        have := i2 h
        generalize Binary.readRange rd olds (Binary.writeAll w vs ++ rest) = p at this
        obtain ⟨ok, y, d⟩ := p
        simpa using this
      · have hp := h2 hg
        refine ⟨fun h => absurd (h v (by simp)) hg, fun _ => ?_⟩
        generalize rd o (w v ++ (Binary.writeAll w vs ++ rest)) = p at hp
        obtain ⟨ok, y, d⟩ := p
        simp only at hp
        subst hp
        rfl

theorem readContainer_outcome {α : Type} {old : List α} {el : Nat → List Byte → Bool × List α × List Byte}
    {w : List Byte} {good : Prop} {v : List α} {rest : List Byte} (hv : v.length < 2 ^ 64)
    (h : Outcome (el v.length (w ++ rest)) good v rest) :
    Outcome (readContainer old el (Binary.toBytes 8 v.length ++ w ++ rest)) good v rest := by
  rw [readContainer, List.append_assoc,
    Binary.readBytes_append _ _ _ (by rw [Binary.toBytes_length, Binary.toBytes_length])]
  simp only
  rw [Binary.ofBytes_toBytes _ _ (by norm_num at hv ⊢; exact hv)]
  exact h

theorem ready_default (t : Ty) : Ready t (default t) := by
  induction t with
  | base t => exact ⟨Binary.wf_default t, Binary.noSeq_default t⟩
  | pair a b iha ihb => exact ⟨iha, ihb⟩
  | vec t _ => intro y hy; exact absurd hy List.not_mem_nil
  | set u t _ => rfl
  | map u k t _ => rfl

theorem read_outcome (less : Less) (t : Ty) (ht : compiles t = true) (v old : Val t) (rest : List Byte)
    (hv : WF less t v) (ho : Ready t old) :
    Outcome (read less t old (write t v ++ rest)) (ZeroKeys t v) v rest := by
  induction t generalizing rest with
  | base t => exact ⟨fun _ => Binary.read_write_partial t v old rest hv ho.1 ho.2, fun h => absurd trivial h⟩
  | pair a b iha ihb =>
    simp only [compiles, Bool.and_eq_true] at ht
    obtain ⟨a1, a2⟩ := iha ht.1 v.1 old.1 (write b v.2 ++ rest) hv.1 ho.1
    obtain ⟨b1, b2⟩ := ihb ht.2 v.2 old.2 rest hv.2 ho.2
    simp only [read, write, List.append_assoc, ZeroKeys]
    by_cases hg : ZeroKeys a v.1
    · rw [a1 hg]
      simp only [Outcome, hg, true_and]
      refine ⟨fun h => by rw [b1 h]; rfl, fun h => ?_⟩
      have := b2 h
      generalize read less b old.2 (write b v.2 ++ rest) = p at this
      obtain ⟨ok, y, d⟩ := p
      simpa using this
    · have hp := a2 hg
      refine ⟨fun h => absurd h.1 hg, fun _ => ?_⟩
      generalize read less a old.1 (write a v.1 ++ (write b v.2 ++ rest)) = p at hp
      obtain ⟨ok, y, d⟩ := p
      simp only at hp
      subst hp
      rfl
  | vec t ih =>
    have hr := Binary.resize_spec (fresh := default t) (List.length v) old (Ready t) (ready_default t) ho
    exact readContainer_outcome hv.1
      (readRange_outcome v _ rest hr.1 fun a ha o hoo r => ih ht a o r (hv.2 a ha) (hr.2 o hoo))
  | set u t ih =>
    obtain rfl : old = ([] : List (Val t)) := ho
    exact readContainer_outcome hv.1 (readEmplace_outcome v [] rest
      (fun a ha r => ih ht a _ r (hv.2.2 a ha) (ready_default t)) hv.2.1)
  | map u k t ih =>
    obtain rfl : old = ([] : List (Binary.Val k × Val t)) := ho
    simp only [compiles, Bool.and_eq_true] at ht
    refine readContainer_outcome hv.1 (readEmplace_outcome v [] rest (fun e he r => ?_) hv.2.1)
    obtain ⟨hk, hw⟩ := hv.2.2 e he
    obtain ⟨m1, m2⟩ := matchConst_write k ht.1 (Binary.default k) e.1 (Binary.wf_default k) hk (write t e.2 ++ r)
    obtain ⟨i1, i2⟩ := ih ht.2 e.2 (default t) r hw (ready_default t)
    simp only [readEntry, List.append_assoc]
    rw [zero_iff k e.1 hk]
    by_cases hz : e.1 = Binary.default k
    · rw [m1 hz.symm]
      simp only [Outcome, hz, true_and]
      refine ⟨fun h => by rw [i1 h, ← hz], fun h => ?_⟩
      have := i2 h
      generalize read less t (default t) (write t e.2 ++ r) = p at this
      obtain ⟨ok, y, d⟩ := p
      simpa using this
    · have hp := m2 (Ne.symm hz)
      refine ⟨fun h => absurd h.1 hz, fun _ => ?_⟩
      generalize matchConst k (Binary.default k) (Binary.write k e.1 ++ (write t e.2 ++ r)) = p at hp
      obtain ⟨ok, d⟩ := p
      simp only at hp
      subst hp
      rfl

/-! ### A value used in the examples -/

/-- Comparing bytes as unsigned numbers, everything else as equivalent. -/
def exLess : Less where
  elem := fun t => match t with
    | .base (.arith n) => fun x y => decide (BitVec.toNat (w := 8 * n) x < BitVec.toNat (w := 8 * n) y)
    | _ => fun _ _ => false
  key := fun t => match t with
    | .arith n => fun x y => decide (BitVec.toNat (w := 8 * n) x < BitVec.toNat (w := 8 * n) y)
    | _ => fun _ _ => false

/-- `std::vector<std::set<uint8_t>>`. -/
abbrev exTy : Ty := .vec (.set true (.base (.arith 1)))
abbrev exVal : Val exTy := ([[1#8, 5#8], [], [7#8]] : List (List (BitVec 8)))

theorem exVal_wf : WF exLess exTy exVal := by
  refine ⟨by decide, fun y hy => ?_⟩
  have h : ∀ z ∈ ([[1#8, 5#8], [], [7#8]] : List (List (BitVec 8))),
      z.length < 2 ^ 64 ∧ z.Pairwise fun a b => decide (a.toNat < b.toNat) = true := by decide
  exact ⟨(h y hy).1, (h y hy).2, fun _ _ => trivial⟩

/-- `std::map<uint8_t, uint8_t>`. -/
abbrev exMap : Ty := .map true (.arith 1) (.base (.arith 1))
abbrev exMapVal : Val exMap := ([(1#8, 2#8), (3#8, 4#8)] : List (BitVec 8 × BitVec 8))

theorem exMap_wf : WF exLess exMap exMapVal := by
  refine ⟨by decide, ?_, fun _ _ => ⟨trivial, trivial⟩⟩
  exact (by decide : ([(1#8, 2#8), (3#8, 4#8)] : List (BitVec 8 × BitVec 8)).Pairwise fun a b =>
    decide (a.1.toNat < b.1.toNat) = true)

/-! ### Reading back -/

/-- **C100** Sets and multisets, nested in each other, in pairs and in vectors, are read back, for any comparison. -/
theorem read_write_sets (less : Less) (t : Ty) (ht : NoMap t) (v old : Val t) (rest : List Byte) (hv : WF less t v)
    (ho : Ready t old) : readBack less t old (write t v ++ rest) = some (true, v, rest) := by
  have hc : compiles t = true ∧ ZeroKeys t v := by
    clear hv ho
    induction t with
    | base t => exact ⟨rfl, trivial⟩
    | pair a b iha ihb =>
      have h1 := iha ht.1 v.1 old.1
      have h2 := ihb ht.2 v.2 old.2
      exact ⟨by simp [compiles, h1.1, h2.1], h1.2, h2.2⟩
    | vec t ih => exact ⟨(ih ht (default t) (default t)).1, fun y _ => (ih ht y (default t)).2⟩
    | set u t ih => exact ⟨(ih ht (default t) (default t)).1, fun y _ => (ih ht y (default t)).2⟩
    | map u k t _ => exact ht.elim
  rw [readBack, if_pos hc.1, (read_outcome less t hc.1 v old rest hv ho).1 hc.2]

example : readBack exLess exTy (default exTy) (write exTy exVal ++ [1#8]) = some (true, exVal, [1#8]) :=
  read_write_sets exLess exTy trivial exVal _ _ exVal_wf fun y hy => absurd hy List.not_mem_nil

/-- **C100** With maps, a value is read back exactly if the key of every element of every map consists of zeros. -/
theorem read_write_iff (less : Less) (t : Ty) (ht : compiles t = true) (v old : Val t) (rest : List Byte)
    (hv : WF less t v) (ho : Ready t old) :
    readBack less t old (write t v ++ rest) = some (true, v, rest) ↔ ZeroKeys t v := by
  obtain ⟨h1, h2⟩ := read_outcome less t ht v old rest hv ho
  rw [readBack, if_pos ht, Option.some.injEq]
  refine ⟨fun h => ?_, h1⟩
  by_contra hz
  have := h2 hz
  rw [h] at this
  simp at this

/-- **C100** (negation) All others are refused. -/
theorem read_key_fails (less : Less) (t : Ty) (ht : compiles t = true) (v old : Val t) (rest : List Byte)
    (hv : WF less t v) (ho : Ready t old) (hz : ¬ ZeroKeys t v) :
    ∃ y r, readBack less t old (write t v ++ rest) = some (false, y, r) := by
  have := (read_outcome less t ht v old rest hv ho).2 hz
  rw [readBack, if_pos ht]
  generalize read less t old (write t v ++ rest) = p at this
  obtain ⟨ok, y, r⟩ := p
  simp only at this
  subst this
  exact ⟨y, r, rfl⟩

example : ∃ y r, readBack exLess exMap (default exMap) (write exMap exMapVal ++ []) = some (false, y, r) :=
  read_key_fails exLess exMap rfl exMapVal _ _ exMap_wf rfl
    (fun h => absurd (h (1#8, 2#8) (List.mem_cons_self ..)).1 (by change ¬ (1#8 = 0#8); decide))

/-- **C100** (negation) In particular a `std::map` with two or more elements is never read back. -/
theorem read_map_two_fails (less : Less) (k : Binary.Ty) (t : Ty) (ht : compiles (.map true k t) = true)
    (hirr : ∀ x, less.key k x x = false) (v : List (Binary.Val k × Val t)) (rest : List Byte)
    (hv : WF less (.map true k t) v) (h2 : 2 ≤ v.length) :
    ∃ y r, readBack less (.map true k t) ([] : List (Binary.Val k × Val t)) (write (.map true k t) v ++ rest) =
      some (false, y, r) := by
  apply read_key_fails less _ ht v _ rest hv rfl
  intro hz
  match v, h2 with
  | a :: b :: l, _ =>
    have ha := (zero_iff k a.1 (hv.2.2 a (by simp)).1).mp (hz a (by simp)).1
    have hb := (zero_iff k b.1 (hv.2.2 b (by simp)).1).mp (hz b (by simp)).1
    have hs : Sorted true (fun a b => less.key k a.1 b.1) (a :: b :: l) := hv.2.1
    have : less.key k a.1 b.1 = true := (List.pairwise_cons.mp hs).1 b (by simp)
    rw [ha, hb, hirr] at this
    simp at this

/-- **C100** (negation) Whatever is read into a map, every new element has the key zero: keys are never read. -/
theorem read_map_keys (less : Less) (u : Bool) (k : Binary.Ty) (t : Ty) (old y : List (Binary.Val k × Val t))
    (d r : List Byte) (ok : Bool) (h : readBack less (.map u k t) old d = some (ok, y, r)) :
    ∀ e ∈ y, e ∈ old ∨ Zero k e.1 := by
  unfold readBack at h
  split at h
  case isFalse => simp at h
  replace h := Option.some.inj h
  simp only [read, readContainer] at h
  have key : ∀ (n : Nat) (xs : List (Binary.Val k × Val t)) (d : List Byte) (ok : Bool)
      (ys : List (Binary.Val k × Val t)) (r : List Byte),
      readEmplace (emplace u (less.entry k)) (readEntry k (read less t)) (Binary.default k, default t) n xs d =
        (ok, ys, r) → ∀ e ∈ ys, e ∈ xs ∨ Zero k e.1 := by
    intro n
    induction n with
    | zero =>
      intro xs d ok ys r h e he
      simp only [readEmplace, Prod.mk.injEq] at h
      rw [h.2.1]
      exact .inl he
    | succ n ih =>
      intro xs d ok ys r h e he
      simp only [readEmplace] at h
      rcases hp : readEntry k (read less t) (Binary.default k, default t) d with ⟨ok', x, d'⟩
      rw [hp] at h
      have hx : x.1 = Binary.default k := by
        simp only [readEntry] at hp
        split at hp
        · simp only [Prod.mk.injEq] at hp
          rw [← hp.2.1]
        · simp only [Prod.mk.injEq] at hp
          rw [← hp.2.1]
      cases ok' with
      | false =>
        simp only [Prod.mk.injEq] at h
        rw [h.2.1]
        exact .inl he
      | true =>
        rcases ih _ _ _ _ _ h e he with h1 | h1
        · rcases emplace_keeps.2 e h1 with rfl | h1
          · exact .inr ((zero_iff k _ (by rw [hx]; exact Binary.wf_default k)).mpr hx)
          · exact .inl h1
        · exact .inr h1
  split at h
  · have h2 : old = y := congrArg (·.2.1) h
    intro e he
    rw [h2]
    exact .inl he
  · exact key _ _ _ _ _ _ h

/-- **C100** (negation) Reading into a set never removes what was in it: a set that lacks one of the old elements is not
restored. -/
theorem read_set_keeps (less : Less) (u : Bool) (t : Ty) (old y : List (Val t)) (d r : List Byte) (ok : Bool)
    (h : readBack less (.set u t) old d = some (ok, y, r)) : ∀ e ∈ old, e ∈ y := by
  unfold readBack at h
  split at h
  case isFalse => simp at h
  replace h := Option.some.inj h
  simp only [read, readContainer] at h
  have key : ∀ (n : Nat) (xs : List (Val t)) (d : List Byte) (ok : Bool) (ys : List (Val t)) (r : List Byte),
      readEmplace (emplace u (less.elem t)) (read less t) (default t) n xs d = (ok, ys, r) → ∀ e ∈ xs, e ∈ ys := by
    intro n
    induction n with
    | zero =>
      intro xs d ok ys r h e he
      simp only [readEmplace, Prod.mk.injEq] at h
      rw [← h.2.1]
      exact he
    | succ n ih =>
      intro xs d ok ys r h e he
      simp only [readEmplace] at h
      rcases hp : read less t (default t) d with ⟨ok', x, d'⟩
      rw [hp] at h
      cases ok' with
      | false =>
        simp only [Prod.mk.injEq] at h
        rw [← h.2.1]
        exact he
      | true => exact ih _ _ _ _ _ h e (emplace_keeps.1 e he)
  split at h
  · have h2 : old = y := congrArg (·.2.1) h
    intro e he
    rw [← h2]
    exact he
  · exact key _ _ _ _ _ _ h

example : readBack exLess (.set true (.base (.arith 1))) ([2#8] : List (BitVec 8))
    (write (.set true (.base (.arith 1))) ([1#8, 5#8] : List (BitVec 8))) =
    some (true, ([1#8, 2#8, 5#8] : List (BitVec 8)), []) := by rfl

end Actl.BinaryAssoc
