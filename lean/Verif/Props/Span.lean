import Verif.Model.Span
import Mathlib.Tactic.Ring
import Mathlib.Tactic.Linarith
import Mathlib.Data.List.TakeDrop

/-!
C86: spans view exactly the requested elements, misuse is reported by an assertion - except where it is
not.  C87: copying between ranges.

A specification independent of the functions of the model: `Views mem s l` says that the span `s` denotes
the elements `l` of the array `mem`.
-/

namespace Actl.Span

universe u

variable {α : Type u}

/-- The span `s` denotes the run `l` of elements of the array `mem`. -/
def Views (mem : List α) (s : Sp) (l : List α) : Prop :=
  s.count = l.length ∧ (s.extent = none ∨ s.extent = some l.length) ∧
    ((s.data = none ∧ l = []) ∨
      ∃ p, s.data = some p ∧ p + l.length ≤ mem.length ∧ (mem.drop p).take l.length = l)

example : Views "abcdefg".toList ⟨none, some 2, 3⟩ "cde".toList := by
  refine ⟨rfl, .inl rfl, .inr ⟨2, rfl, by decide, by decide⟩⟩

example : Views "abcdefg".toList ⟨some 0, none, 0⟩ [] := ⟨rfl, .inr rfl, .inl ⟨rfl, rfl⟩⟩

theorem Views.size {mem : List α} {s : Sp} {l : List α} (h : Views mem s l) : s.size = l.length := by
  obtain ⟨h1, h2 | h2, -⟩ := h <;> simp [Sp.size, h1, h2]

theorem take_get {mem l : List α} {p : Nat} (hl : (mem.drop p).take l.length = l) {i : Nat}
    (hi : i < l.length) : mem[p + i]? = l[i]? := by
  conv_rhs => rw [← hl]
  rw [List.getElem?_take_of_lt hi, List.getElem?_drop]

theorem views_of_get {mem l : List α} {p : Nat} (hp : p + l.length ≤ mem.length)
    (h : ∀ i < l.length, mem[p + i]? = l[i]?) : (mem.drop p).take l.length = l := by
  apply List.ext_getElem?
  intro i
  by_cases hi : i < l.length
  · rw [List.getElem?_take_of_lt hi, List.getElem?_drop, h i hi]
  · rw [List.getElem?_eq_none (by simp; omega), List.getElem?_eq_none (by omega)]

theorem toSize_sub {w a b : Nat} (hab : b ≤ a) (h : a - b < 2 ^ w) : toSize w ((a : Int) - b) = a - b := by
  unfold toSize
  generalize 2 ^ w = M at *
  rw [Int.emod_eq_of_lt (by omega) (by omega)]
  omega

theorem toSize_neg {w a b : Nat} (hab : b < a) (h : a - b ≤ 2 ^ w) :
    toSize w ((b : Int) - a) = 2 ^ w - (a - b) := by
  unfold toSize
  generalize 2 ^ w = M at *
  rw [← Int.add_emod_right, Int.emod_eq_of_lt (by omega) (by omega)]
  omega

/-- The pointer past the last element. -/
theorem Views.endOf {mem : List α} {s : Sp} {l : List α} (h : Views mem s l) :
    endOf mem.length s = .ok (s.data.map (· + l.length)) := by
  have hs := h.size
  obtain ⟨-, -, ⟨hd, rfl⟩ | ⟨p, hd, hp, -⟩⟩ := h
  · simp [Span.endOf, hd, hs, add]
  · rw [Span.endOf, hd, hs]
    simp only [add, Option.map_some]
    rw [if_pos (by omega)]
    congr 2

/-! ### Making spans -/

/-- A pointer and a count make a span of just these elements. -/
theorem make_spec (mem : List α) (N : Option Nat) (p n : Nat) (hN : N = none ∨ N = some n)
    (hp : p + n ≤ mem.length) :
    ∃ s, make N (some p) n = .ok s ∧ Views mem s ((mem.drop p).take n) := by
  have hlen : ((mem.drop p).take n).length = n := by simp; omega
  refine ⟨⟨N, some p, n⟩, ?_, ?_⟩
  · rcases hN with rfl | rfl <;> simp [make]
  · refine ⟨hlen.symm, by rw [hlen]; exact hN, .inr ⟨p, rfl, by rw [hlen]; exact hp, by rw [hlen]⟩⟩

example : ∃ s, make none (some 1) 2 = .ok s ∧ Views "abcd".toList s "bc".toList :=
  make_spec "abcd".toList none 1 2 (.inl rfl) (by decide)

/-- A count other than the static extent is reported. -/
theorem make_extent (n : Nat) (p : Ptr) (k : Nat) (h : k ≠ n) : make (some n) p k = .fail := by
  simp [make, h]

example : make (some 3) (some 0) 2 = .fail := make_extent 3 (some 0) 2 (by decide)

/-- A null pointer to a positive number of elements is reported. -/
theorem make_null (N : Option Nat) (k : Nat) (h : 0 < k) : make N none k = .fail := by
  cases N with
  | none => simp [make]; omega
  | some n => by_cases hk : k = n <;> simp [make, hk]; omega

example : make none none 2 = .fail := make_null none 2 (by decide)

/-- The default constructor makes an empty span. -/
theorem makeEmpty_spec (mem : List α) (N : Option Nat) (hN : N = none ∨ N = some 0) :
    ∃ s, makeEmpty N = .ok s ∧ Views mem s [] := by
  refine ⟨⟨N, none, 0⟩, ?_, rfl, hN, .inl ⟨rfl, rfl⟩⟩
  rcases hN with rfl | rfl <;> simp [makeEmpty, make]

/-- Two pointers in the right order make a span of the elements between them. -/
theorem makeRange_spec (w : Nat) (mem : List α) (hw : mem.length < 2 ^ w) (N : Option Nat) (p q : Nat)
    (hN : N = none ∨ N = some (q - p)) (hpq : p ≤ q) (hq : q ≤ mem.length) :
    ∃ s, makeRange w N (some p) (some q) = .ok s ∧ Views mem s ((mem.drop p).take (q - p)) := by
  have : toSize w ((q : Int) - p) = q - p := toSize_sub hpq (by omega)
  simp only [makeRange, diff, Out.bind, this]
  exact make_spec mem N p (q - p) hN (by omega)

example : ∃ s, makeRange 64 none (some 1) (some 3) = .ok s ∧ Views "abcd".toList s "bc".toList :=
  makeRange_spec 64 "abcd".toList (by decide) none 1 3 (.inl rfl) (by decide) (by decide)

/-- Two pointers in the wrong order are not reported when the extent is dynamic: the span pretends to have
nearly as many elements as there are addresses, whatever the two pointers are. -/
theorem makeRange_reversed_fails (w : Nat) (mem : List α) (p q : Nat) (hqp : q < p)
    (hp : p ≤ mem.length) (hw : mem.length < 2 ^ w) :
    ∃ s, makeRange w none (some p) (some q) = .ok s ∧ s.size + (p - q) = 2 ^ w ∧ ∀ l, ¬ Views mem s l := by
  have ht : toSize w ((q : Int) - p) = 2 ^ w - (p - q) := toSize_neg hqp (by omega)
  refine ⟨⟨none, some p, 2 ^ w - (p - q)⟩, ?_, ?_, fun l => ?_⟩
  · simp [makeRange, diff, Out.bind, make, ht]
  · simp only [Sp.size]; omega
  · intro hv
    obtain ⟨h1, -, ⟨h2, -⟩ | ⟨p', h2, h3, -⟩⟩ := hv
    · simp at h2
    · have : p' = p := by simpa using h2.symm
      simp only at h1
      omega

example : ∃ s, makeRange 64 none (some 3) (some 1) = .ok s ∧ s.size + 2 = 2 ^ 64 ∧
    ∀ l, ¬ Views "abcd".toList s l :=
  makeRange_reversed_fails 64 "abcd".toList 3 1 (by decide) (by decide) (by decide)

/-- A span made of a span (in general of a contiguous range) denotes the same elements; a wrong size for
the static extent is reported. -/
theorem convert_spec (mem : List α) (N : Option Nat) (s : Sp) (l : List α) (h : Views mem s l) :
    if N = none ∨ N = some l.length then ∃ t, convert N s = .ok t ∧ Views mem t l
    else convert N s = .fail := by
  have hs := h.size
  obtain ⟨h1, h2, h3⟩ := h
  split_ifs with hN
  · refine ⟨⟨N, s.data, l.length⟩, ?_, rfl, hN, h3⟩
    have : s.data.isSome ∨ l.length = 0 := by
      rcases h3 with ⟨-, rfl⟩ | ⟨p, h3, -⟩
      · exact .inr rfl
      · simp [h3]
    rcases hN with rfl | rfl <;> rcases this with ht | ht <;> simp [convert, make, hs, ht]
  · cases N with
    | none => simp at hN
    | some n =>
      rw [convert, hs]
      exact make_extent n _ _ (by rintro rfl; exact hN (.inr rfl))

/-! ### Reading and writing -/

theorem walk_spec (mem : List α) (p : Nat) : ∀ (l : List α) (i fuel : Nat),
    (∀ k < l.length, mem[p + i + k]? = l[k]?) → l.length < fuel →
    walk mem fuel (some (p + i)) (some (p + (i + l.length))) = .ok l
  | [], i, fuel + 1, _, _ => by simp [walk]
  | a :: l, i, fuel + 1, h, hf => by
    have h0 := h 0 (by simp)
    simp only [Nat.add_zero, List.getElem?_cons_zero] at h0
    have hlt : p + i < mem.length := by
      by_contra hc
      rw [List.getElem?_eq_none (by omega)] at h0
      simp at h0
    have ih := walk_spec mem p l (i + 1) fuel
      (fun k hk => by
        have := h (k + 1) (by simp; omega)
        rw [show p + i + (k + 1) = p + (i + 1) + k by omega, List.getElem?_cons_succ] at this
        exact this) (by simp at hf; omega)
    rw [walk, if_neg (by simp)]
    simp only [read, h0, add]
    rw [if_pos (by omega)]
    rw [show ((p + i : Nat) + (1 : Int)).toNat = p + (i + 1) by omega]
    rw [show p + (i + (a :: l).length) = p + (i + 1 + l.length) by simp; omega]
    simp only [ih, Out.bind]

/-- A range-based loop over the span reads just its elements. -/
theorem elems_spec (mem : List α) (s : Sp) (l : List α) (h : Views mem s l) : elems mem s = .ok l := by
  rw [elems, h.endOf]
  obtain ⟨-, -, ⟨hd, rfl⟩ | ⟨p, hd, hp, hl⟩⟩ := h
  · simp [hd, walk]
  · simp only [hd, Option.map_some]
    have := walk_spec mem p l 0 (mem.length + 1) (fun k hk => by simpa using take_get hl hk) (by omega)
    simpa using this

example : elems "abcdefg".toList ⟨none, some 2, 3⟩ = .ok "cde".toList := by decide +kernel

theorem Views.at {w : Nat} {mem : List α} {s : Sp} {l : List α} (hw : mem.length < 2 ^ w)
    (h : Views mem s l) (i : Int) :
    (0 ≤ i ∧ i < l.length ∧ ∃ p, s.data = some p ∧ at_ w mem.length s i = .ok (some (p + i.toNat))) ∨
      (¬ (0 ≤ i ∧ i < l.length) ∧ at_ w mem.length s i = .fail) := by
  have he := h.endOf
  obtain ⟨-, -, ⟨hd, rfl⟩ | ⟨p, hd, hp, hl⟩⟩ := h
  · refine .inr ⟨by simp, ?_⟩
    simp only [at_, he, hd, Option.map_none, diff, toSize, Int.zero_emod]
    rw [if_neg (by simp)]
  · have ht : toSize w (((p + l.length : Nat) : Int) - p) = l.length := by
      rw [toSize_sub (by omega) (by omega)]
      omega
    simp only [at_, he, hd, Option.map_some, diff, ht]
    by_cases hi : 0 ≤ i ∧ i < l.length
    · refine .inl ⟨hi.1, hi.2, p, rfl, ?_⟩
      rw [if_pos hi]
      simp only [add]
      rw [if_pos (by omega)]
      congr 2
      omega
    · exact .inr ⟨hi, by rw [if_neg hi]⟩

/-- `s[i]` is the element number `i`; an index that is negative or not less than the size is reported. -/
theorem index_spec (w : Nat) (mem : List α) (hw : mem.length < 2 ^ w) (s : Sp) (l : List α)
    (h : Views mem s l) (i : Int) :
    if h : 0 ≤ i ∧ i < l.length then index w mem s i = .ok (l[i.toNat]'(by omega))
    else index w mem s i = .fail := by
  rcases h.at hw i with ⟨h0, h1, p, hd, hi⟩ | ⟨hn, hi⟩
  · rw [dif_pos ⟨h0, h1⟩]
    obtain ⟨-, -, ⟨hd', -⟩ | ⟨p', hd', hp, hl⟩⟩ := h
    · simp [hd] at hd'
    · have : p' = p := by simpa [hd] using hd'.symm
      subst this
      have hg := take_get hl (i := i.toNat) (by omega)
      rw [List.getElem?_eq_getElem (by omega : i.toNat < l.length)] at hg
      simp [index, hi, read, hg]
  · rw [dif_neg hn, index, hi]

example : index 64 "abcdefg".toList ⟨none, some 2, 3⟩ 1 = .ok 'd' ∧
    index 64 "abcdefg".toList ⟨none, some 2, 3⟩ 3 = .fail ∧
    index 64 "abcdefg".toList ⟨none, some 2, 3⟩ (-1) = .fail := by
  decide +kernel

/-- `s[i] = a` writes to the element number `i` of the span and to no other element of the array, whether
the span contains it or not. -/
theorem assign_spec (w : Nat) (mem : List α) (hw : mem.length < 2 ^ w) (s : Sp) (l : List α)
    (h : Views mem s l) (i : Int) (a : α) :
    if 0 ≤ i ∧ i < l.length then
      ∃ mem' p, assign w mem s i a = .ok mem' ∧ s.data = some p ∧ Views mem' s (l.set i.toNat a) ∧
        mem'.length = mem.length ∧ ∀ j, j ≠ p + i.toNat → mem'[j]? = mem[j]?
    else assign w mem s i a = .fail := by
  rcases h.at hw i with ⟨h0, h1, p, hd, hi⟩ | ⟨hn, hi⟩
  · rw [if_pos ⟨h0, h1⟩]
    obtain ⟨hc, hx, ⟨hd', -⟩ | ⟨p', hd', hp, hl⟩⟩ := h
    · simp [hd] at hd'
    · have : p' = p := by simpa [hd] using hd'.symm
      subst this
      refine ⟨mem.set (p' + i.toNat) a, p', ?_, hd, ⟨by simpa using hc, by simpa using hx, .inr ⟨p', hd, ?_, ?_⟩⟩,
        by simp, fun j hj => by rw [List.getElem?_set_ne (Ne.symm hj)]⟩
      · simp only [assign, hi, write]
        rw [if_pos (by omega)]
      · simpa using hp
      · apply views_of_get
        · simpa using hp
        · intro k hk
          simp only [List.length_set] at hk
          rw [List.getElem?_set, List.getElem?_set]
          by_cases hki : i.toNat = k
          · subst hki
            have h2 : p' + i.toNat < mem.length := by omega
            simp [h2, hk]
          · rw [if_neg (by omega), if_neg hki, take_get hl hk]
  · rw [if_neg hn, assign, hi]

/-- `front()` is the first element, reported when there is none. -/
theorem front_spec (mem : List α) (s : Sp) (l : List α) (h : Views mem s l) :
    front mem s = match l with
      | [] => .fail
      | a :: _ => .ok a := by
  have he := h.endOf
  obtain ⟨-, -, ⟨hd, rfl⟩ | ⟨p, hd, hp, hl⟩⟩ := h
  · simp [front, empty, he, hd, Out.bind]
  · cases l with
    | nil => simp [front, empty, he, hd, Out.bind]
    | cons a l =>
      have hg := take_get hl (i := 0) (by simp)
      simp only [Nat.add_zero, List.getElem?_cons_zero] at hg
      simp [front, empty, he, hd, Out.bind, read, hg]

/-- `back()` is the last element, reported when there is none. -/
theorem back_spec (mem : List α) (s : Sp) (l : List α) (h : Views mem s l) :
    back mem s = match l.getLast? with
      | none => .fail
      | some a => .ok a := by
  have he := h.endOf
  obtain ⟨-, -, ⟨hd, rfl⟩ | ⟨p, hd, hp, hl⟩⟩ := h
  · simp [back, empty, he, hd, Out.bind]
  · by_cases h0 : l.length = 0
    · have : l = [] := List.eq_nil_of_length_eq_zero h0
      subst this
      simp [back, empty, he, hd, Out.bind]
    · have hg := take_get hl (i := l.length - 1) (by omega)
      have hx : (p + l.length : Nat) + (-1 : Int) = ((p + (l.length - 1) : Nat) : Int) := by omega
      have hx2 : p + (l.length - 1) ≤ mem.length := by omega
      rw [← List.getLast?_eq_getElem?] at hg
      have hb : (some p == some (p + l.length)) = false := by simpa using h0
      simp only [back, empty, he, hd, Out.bind, Option.map_some, hb, add, Bool.false_eq_true, if_false]
      rw [hx, if_pos (by omega)]
      simp only [Int.toNat_natCast, read, hg]
      cases hl' : l.getLast? with
      | none => simp at hl'; simp [hl'] at h0
      | some a => rfl

/-! ### Parts of a span -/

/-- `first(n)` denotes the first `n` elements; a larger `n` than the size is reported. -/
theorem first_spec (mem : List α) (s : Sp) (l : List α) (h : Views mem s l) (n : Nat) :
    if n ≤ l.length then ∃ t, first s n = .ok t ∧ Views mem t (l.take n) else first s n = .fail := by
  have hs := h.size
  obtain ⟨-, -, h3⟩ := h
  split_ifs with hn
  · have hm : min n l.length = n := by omega
    refine ⟨⟨none, s.data, n⟩, ?_, by simp [hm], .inl rfl, ?_⟩
    · rw [first, if_pos (by omega)]
      rcases h3 with ⟨hd, rfl⟩ | ⟨p, hd, -⟩
      · simp at hn
        simp [make, hn]
      · simp [make, hd]
    · rcases h3 with ⟨hd, rfl⟩ | ⟨p, hd, hp, hl⟩
      · exact .inl ⟨hd, by simp⟩
      · refine .inr ⟨p, hd, by simp; omega, ?_⟩
        conv_rhs => rw [← hl, List.take_take]
        simp
  · rw [first, if_neg (by omega)]

/-- `last(n)` denotes the last `n` elements; a larger `n` than the size is reported. -/
theorem last_spec (mem : List α) (s : Sp) (l : List α) (h : Views mem s l) (n : Nat) :
    if n ≤ l.length then ∃ t, last mem.length s n = .ok t ∧ Views mem t (l.drop (l.length - n))
    else last mem.length s n = .fail := by
  have hs := h.size
  have he := h.endOf
  obtain ⟨-, -, h3⟩ := h
  split_ifs with hn
  · rw [last, if_pos (by omega), he]
    rcases h3 with ⟨hd, rfl⟩ | ⟨p, hd, hp, hl⟩
    · have hn0 : n = 0 := by simpa using hn
      subst hn0
      refine ⟨⟨none, none, 0⟩, ?_, by simp, .inl rfl, .inl ⟨rfl, by simp⟩⟩
      simp [hd, Out.bind, add, make]
    · have hlen : (l.drop (l.length - n)).length = n := by simp; omega
      refine ⟨⟨none, some (p + (l.length - n)), n⟩, ?_, hlen.symm, .inl rfl, .inr ⟨_, rfl, ?_, ?_⟩⟩
      · simp only [hd, Option.map_some, Out.bind, add]
        rw [if_pos (by omega)]
        simp only [make, Option.isSome_some, Bool.true_or, if_true]
        congr 3
        omega
      · rw [hlen]; omega
      · apply views_of_get
        · rw [hlen]; omega
        · intro k hk
          rw [hlen] at hk
          rw [List.getElem?_drop, ← take_get hl (by omega)]
          congr 1
          omega
  · rw [last, if_neg (by omega)]

/-- `subspan(offset, count)` denotes `count` elements from number `offset` on; asking for more elements than
there are is reported, as long as the sum of both numbers fits `size_t`. -/
theorem subspan_spec (w : Nat) (mem : List α) (s : Sp) (l : List α) (h : Views mem s l) (offset count : Nat)
    (hw : offset + count < 2 ^ w) :
    if offset + count ≤ l.length then
      ∃ t, subspan w mem.length s offset count = .ok t ∧ Views mem t ((l.drop offset).take count)
    else subspan w mem.length s offset count = .fail := by
  have hs := h.size
  obtain ⟨-, -, h3⟩ := h
  rw [subspan, Nat.mod_eq_of_lt hw, hs]
  split_ifs with hn
  · rcases h3 with ⟨hd, rfl⟩ | ⟨p, hd, hp, hl⟩
    · have hn0 : offset = 0 ∧ count = 0 := by simp at hn; omega
      obtain ⟨rfl, rfl⟩ := hn0
      refine ⟨⟨none, none, 0⟩, ?_, by simp, .inl rfl, .inl ⟨rfl, by simp⟩⟩
      simp [hd, Out.bind, add, make]
    · have hlen : ((l.drop offset).take count).length = count := by simp; omega
      refine ⟨⟨none, some (p + offset), count⟩, ?_, hlen.symm, .inl rfl, .inr ⟨_, rfl, ?_, ?_⟩⟩
      · simp only [hd, Out.bind, add]
        rw [if_pos (by omega)]
        simp only [make, Option.isSome_some, Bool.true_or, if_true]
        congr 3
      · rw [hlen]; omega
      · apply views_of_get
        · rw [hlen]; omega
        · intro k hk
          rw [hlen] at hk
          rw [List.getElem?_take_of_lt hk, List.getElem?_drop, ← take_get hl (by omega), Nat.add_assoc]
  · rfl

/-- `subspan(offset)` denotes the elements from number `offset` on. -/
theorem subspanFrom_spec (w : Nat) (mem : List α) (hw : mem.length < 2 ^ w) (s : Sp) (l : List α)
    (h : Views mem s l) (offset : Nat) (ho : offset ≤ l.length) :
    ∃ t, subspanFrom w mem.length s offset = .ok t ∧ Views mem t (l.drop offset) := by
  have hlm : l.length ≤ mem.length := by
    obtain ⟨-, -, ⟨-, rfl⟩ | ⟨p, -, hp, -⟩⟩ := h
    · simp
    · omega
  have ht : toSize w ((s.size : Int) - offset) = l.length - offset := by
    rw [h.size, toSize_sub ho (by omega)]
  have := subspan_spec w mem s l h offset (l.length - offset) (by omega)
  rw [if_pos (by omega), List.take_of_length_le (by simp)] at this
  rw [subspanFrom, ht]
  exact this

example : ∃ t, subspanFrom 64 7 ⟨none, some 2, 3⟩ 1 = .ok t ∧ Views "abcdefg".toList t "de".toList :=
  subspanFrom_spec 64 "abcdefg".toList (by decide) ⟨none, some 2, 3⟩ "cde".toList
    ⟨rfl, .inl rfl, .inr ⟨2, rfl, by decide, by decide⟩⟩ 1 (by decide)

/-- The two parts at any place make up the span. -/
theorem first_subspan (w : Nat) (mem : List α) (hw : mem.length < 2 ^ w) (s : Sp) (l : List α)
    (h : Views mem s l) (n : Nat) (hn : n ≤ l.length) :
    ∃ a b x y, first s n = .ok a ∧ subspanFrom w mem.length s n = .ok b ∧
      elems mem a = .ok x ∧ elems mem b = .ok y ∧ x.length = n ∧ elems mem s = .ok (x ++ y) := by
  have h1 := first_spec mem s l h n
  rw [if_pos hn] at h1
  obtain ⟨a, ha, va⟩ := h1
  obtain ⟨b, hb, vb⟩ := subspanFrom_spec w mem hw s l h n hn
  exact ⟨a, b, l.take n, l.drop n, ha, hb, elems_spec mem a _ va, elems_spec mem b _ vb,
    by simp; omega, by rw [List.take_append_drop]; exact elems_spec mem s l h⟩

/-- An offset beyond the size is never reported by `subspan(offset)`: the assertion compares a sum that has
wrapped around to the size.  Either the pointer leaves the array, or the result is a span of nearly as many
elements as there are addresses. -/
theorem subspanFrom_beyond_fails (w : Nat) (mem : List α) (s : Sp) (l : List α)
    (h : Views mem s l) (hw : mem.length < 2 ^ w) (offset : Nat) (ho : l.length < offset)
    (ho' : offset < 2 ^ w) :
    subspanFrom w mem.length s offset = .ub ∨
      ∃ t, subspanFrom w mem.length s offset = .ok t ∧ t.size + (offset - l.length) = 2 ^ w ∧
        ∀ l', ¬ Views mem t l' := by
  have hlm : l.length ≤ mem.length := by
    obtain ⟨-, -, ⟨-, rfl⟩ | ⟨p, -, hp, -⟩⟩ := h
    · simp
    · omega
  have ht : toSize w ((s.size : Int) - offset) = 2 ^ w - (offset - l.length) := by
    rw [h.size, toSize_neg ho (by omega)]
  have hm : (offset + (2 ^ w - (offset - l.length))) % 2 ^ w = l.length := by
    rw [show offset + (2 ^ w - (offset - l.length)) = l.length + 2 ^ w by omega, Nat.add_mod_right,
      Nat.mod_eq_of_lt (by omega)]
  rw [subspanFrom, ht, subspan, hm, if_pos (by rw [h.size])]
  have hs := h.size
  obtain ⟨-, -, ⟨hd, -⟩ | ⟨p, hd, hp, hl⟩⟩ := h
  · left
    simp only [hd, add]
    rw [if_neg (by omega)]
    rfl
  · simp only [hd, add]
    by_cases hq : (p : Int) + offset ≤ mem.length
    · right
      rw [if_pos (by omega)]
      refine ⟨⟨none, some (p + offset), 2 ^ w - (offset - l.length)⟩, ?_, ?_, ?_⟩
      · simp only [Out.bind, make, Option.isSome_some, Bool.true_or, if_true]
        congr 3
      · simp only [Sp.size]; omega
      · rintro l' ⟨h1, -, ⟨h2, -⟩ | ⟨p', h2, h3, -⟩⟩
        · simp at h2
        · have : p' = p + offset := by simpa using h2.symm
          simp only at h1
          omega
    · left
      rw [if_neg (by omega)]
      rfl

example : ∃ t, subspanFrom 64 7 ⟨none, some 2, 3⟩ 4 = .ok t ∧ t.size + 1 = 2 ^ 64 ∧
    ∀ l, ¬ Views "abcdefg".toList t l := by
  rcases subspanFrom_beyond_fails 64 "abcdefg".toList ⟨none, some 2, 3⟩ "cde".toList
    ⟨rfl, .inl rfl, .inr ⟨2, rfl, by decide, by decide⟩⟩ (by decide) 4 (by decide) (by decide) with h | h
  · simp [subspanFrom, subspan, toSize, Sp.size, add, Out.bind, make] at h
  · simpa using h

/-- `subspan(offset, count)` does not report any request whose sum wraps around to at most the size,
although such a request is always too large. -/
theorem subspan_overflow_fails (w : Nat) (mem : List α) (s : Sp) (l : List α) (h : Views mem s l)
    (hw : mem.length < 2 ^ w) (offset count : Nat) (ho : offset < 2 ^ w) (hc : count < 2 ^ w)
    (h1 : 2 ^ w ≤ offset + count) (h2 : offset + count - 2 ^ w ≤ l.length) :
    subspan w mem.length s offset count = .ub ∨
      ∃ t, subspan w mem.length s offset count = .ok t ∧ t.size = count ∧
        ∀ l', ¬ Views mem t l' := by
  have hm : (offset + count) % 2 ^ w = offset + count - 2 ^ w := by
    rw [Nat.mod_eq_sub_mod h1, Nat.mod_eq_of_lt (by omega)]
  rw [subspan, hm, if_pos (by rw [h.size]; exact h2)]
  obtain ⟨-, -, ⟨hd, -⟩ | ⟨p, hd, hp, hl⟩⟩ := h
  · left
    simp only [hd, add]
    rw [if_neg (by omega)]
    rfl
  · simp only [hd, add]
    by_cases hq : (p : Int) + offset ≤ mem.length
    · right
      rw [if_pos (by omega)]
      refine ⟨⟨none, some (p + offset), count⟩, ?_, rfl, ?_⟩
      · simp only [Out.bind, make, Option.isSome_some, Bool.true_or, if_true]
        congr 3
      · rintro l' ⟨h1, -, ⟨h2, -⟩ | ⟨p', h2, h3, -⟩⟩
        · simp at h2
        · have : p' = p + offset := by simpa using h2.symm
          simp only at h1
          omega
    · left
      rw [if_neg (by omega)]
      rfl

example : subspan 64 7 ⟨none, some 2, 3⟩ 2 (2 ^ 64 - 1) = .ok ⟨none, some 4, 2 ^ 64 - 1⟩ := by
  decide +kernel

/-! ### Copying (C87) -/

/-- The element that ends up at distance `k` from the start of the target when `n` elements are copied from
position `a` to position `t`, first to last: the one at distance `k` of the source, unless the copying
itself has overwritten it, which happens when the target starts inside the source; the first `t - a`
elements of the source are then repeated. -/
def sourceOf (a t k : Nat) : Nat := if a < t then a + k % (t - a) else a + k

theorem copyLoop_spec (mem : List α) (a t n : Nat) (ha : a + n ≤ mem.length) (ht : t + n ≤ mem.length) :
    ∀ (m k fuel : Nat) (cur : List α), k + m = n → m < fuel → cur.length = mem.length →
      (∀ j, cur[j]? = if t ≤ j ∧ j < t + k then mem[sourceOf a t (j - t)]? else mem[j]?) →
      ∃ out, copyLoop fuel cur (some (t + k)) (some (a + k)) (some (a + n)) = .ok (out, some (t + n)) ∧
        out.length = mem.length ∧
        ∀ j, out[j]? = if t ≤ j ∧ j < t + n then mem[sourceOf a t (j - t)]? else mem[j]?
  | 0, k, fuel + 1, cur, hk, _, hlen, hcur => by
    have : k = n := by omega
    subst this
    exact ⟨cur, by simp [copyLoop], hlen, hcur⟩
  | m + 1, k, fuel + 1, cur, hk, hf, hlen, hcur => by
    have hkn : k < n := by omega
    have hsrc : cur[a + k]? = mem[sourceOf a t k]? := by
      rw [hcur]
      by_cases hat : a < t
      · by_cases hin : t ≤ a + k
        · rw [if_pos ⟨hin, by omega⟩]
          unfold sourceOf
          rw [if_pos hat, if_pos hat]
          have : a + k - t = k - (t - a) := by omega
          rw [this, ← Nat.mod_eq_sub_mod (by omega)]
        · rw [if_neg (by omega)]
          unfold sourceOf
          rw [if_pos hat, Nat.mod_eq_of_lt (by omega)]
      · rw [if_neg (by omega)]
        unfold sourceOf
        rw [if_neg hat]
    have hlt : sourceOf a t k < mem.length := by
      unfold sourceOf
      split_ifs with hat
      · have := Nat.mod_le k (t - a); omega
      · omega
    have hread : read cur (some (a + k)) = .ok (mem[sourceOf a t k]) := by
      simp only [read, hsrc, List.getElem?_eq_getElem hlt]
    obtain ⟨out, h1, h2, h3⟩ := copyLoop_spec mem a t n ha ht m (k + 1) fuel
      (cur.set (t + k) mem[sourceOf a t k]) (by omega) (by omega) (by simpa using hlen) (fun j => by
        rw [List.getElem?_set]
        by_cases hj : t + k = j
        · subst hj
          rw [if_pos rfl, if_pos (by omega), if_pos (by omega), Nat.add_sub_cancel_left,
            List.getElem?_eq_getElem hlt]
        · rw [if_neg hj, hcur j]
          by_cases hj2 : t ≤ j ∧ j < t + k
          · rw [if_pos hj2, if_pos (by omega)]
          · rw [if_neg hj2, if_neg (by omega)])
    refine ⟨out, ?_, h2, h3⟩
    rw [copyLoop, if_neg (by simp; omega), hread]
    simp only [write, add]
    rw [if_pos (by omega)]
    simp only
    rw [if_pos (by omega), if_pos (by omega)]
    simp only
    rw [show ((a + k : Nat) + (1 : Int)).toNat = a + (k + 1) by omega,
      show ((t + k : Nat) + (1 : Int)).toNat = t + (k + 1) by omega]
    exact h1

/-- What copying a span to a position of the same array does to every element of the array, overlapping or
not; the result of the call is the position past the last element written. -/
theorem copyTo_spec (mem : List α) (s : Sp) (l : List α) (h : Views mem s l) (a t : Nat)
    (hd : s.data = some a) (ht : t + l.length ≤ mem.length) :
    ∃ out, copyTo mem (some t) s = .ok (out, some (t + l.length)) ∧ out.length = mem.length ∧
      ∀ j, out[j]? = if t ≤ j ∧ j < t + l.length then mem[sourceOf a t (j - t)]? else mem[j]? := by
  have he := h.endOf
  obtain ⟨-, -, ⟨hd', -⟩ | ⟨p, hd', hp, hl⟩⟩ := h
  · simp [hd] at hd'
  · have : p = a := by simpa [hd] using hd'.symm
    subst this
    obtain ⟨out, h1, h2, h3⟩ := copyLoop_spec mem p t l.length hp ht l.length 0 (mem.length + 1) mem
      (by omega) (by omega) rfl (fun j => by rw [if_neg (by omega)])
    refine ⟨out, ?_, h2, h3⟩
    rw [copyTo, he, hd]
    simpa using h1

example : ∃ out, copyTo "abcdefg".toList (some 4) ⟨none, some 2, 3⟩ = .ok (out, some 7) ∧
    out.length = 7 ∧ ∀ j, out[j]? = if 4 ≤ j ∧ j < 7 then "abcdefg".toList[sourceOf 2 4 (j - 4)]?
      else "abcdefg".toList[j]? :=
  copyTo_spec "abcdefg".toList ⟨none, some 2, 3⟩ "cde".toList
    ⟨rfl, .inl rfl, .inr ⟨2, rfl, by decide, by decide⟩⟩ 2 4 rfl (by decide)

example : copyTo "abcdefg".toList (some 4) ⟨none, some 2, 3⟩ = .ok ("abcdcdc".toList, some 7) := by
  decide +kernel

/-- Copying a range to a range of the same size: the target then denotes the elements the source denoted,
unless the target starts inside the source (copying is done first to last).  Nothing outside the target
changes.  Different sizes are reported. -/
theorem copy_spec (mem : List α) (s t : Sp) (ls lt : List α) (hs : Views mem s ls) (ht : Views mem t lt) :
    if lt.length = ls.length then
      ∃ out, copy mem t s = .ok out ∧ out.length = mem.length ∧
        (∀ j, (∀ q, t.data = some q → j < q ∨ q + lt.length ≤ j) → out[j]? = mem[j]?) ∧
        ((∀ p q, s.data = some p → t.data = some q → ¬ (p < q ∧ q < p + ls.length)) → Views out t ls)
    else copy mem t s = .fail := by
  have hss := hs.size
  have hts := ht.size
  split_ifs with hlen
  · rw [copy, if_pos (by omega)]
    by_cases h0 : ls.length = 0
    · -- nothing is copied
      have hls : ls = [] := List.eq_nil_of_length_eq_zero h0
      have hlt : lt = [] := List.eq_nil_of_length_eq_zero (by omega)
      subst hls hlt
      refine ⟨mem, ?_, rfl, fun _ _ => rfl, fun _ => ht⟩
      rw [copyTo, hs.endOf]
      cases hd : s.data <;> simp [copyLoop]
    · obtain ⟨p, hsd, hsp, hsl⟩ : ∃ p, s.data = some p ∧ p + ls.length ≤ mem.length ∧
          (mem.drop p).take ls.length = ls := by
        obtain ⟨-, -, ⟨-, rfl⟩ | h⟩ := hs
        · simp at h0
        · exact h
      obtain ⟨q, htd, htp, -⟩ : ∃ q, t.data = some q ∧ q + lt.length ≤ mem.length ∧
          (mem.drop q).take lt.length = lt := by
        obtain ⟨-, -, ⟨-, rfl⟩ | h⟩ := ht
        · simp at hlen; omega
        · exact h
      obtain ⟨out, h1, h2, h3⟩ := copyTo_spec mem s ls hs p q hsd (by omega)
      refine ⟨out, by rw [htd, h1], h2, fun j hj => ?_, fun hov => ?_⟩
      · rw [h3, if_neg]
        have := hj q htd
        omega
      · obtain ⟨hc, hx, -⟩ := ht
        refine ⟨by omega, by rw [← hlen]; exact hx, .inr ⟨q, htd, by omega, ?_⟩⟩
        apply views_of_get (by omega)
        intro k hk
        rw [h3, if_pos (by omega), ← take_get hsl hk, Nat.add_sub_cancel_left]
        have := hov p q hsd htd
        unfold sourceOf
        split_ifs with hpq
        · rw [Nat.mod_eq_of_lt (by omega)]
        · rfl
  · rw [copy, if_neg (by omega)]

/-- When the target starts inside the source, the target ends up with a repetition of the first elements of
the source: those up to the start of the target. -/
theorem copy_overlap_fails (mem : List α) (s t : Sp) (ls lt : List α) (hs : Views mem s ls)
    (ht : Views mem t lt) (hlen : lt.length = ls.length) (p q : Nat) (hp : s.data = some p)
    (hq : t.data = some q) (h1 : p < q) (h2 : q < p + ls.length) :
    ∃ out lo, copy mem t s = .ok out ∧ Views out t lo ∧ lo.length = ls.length ∧
      ∀ k, k < ls.length → lo[k]? = ls[k % (q - p)]? := by
  obtain ⟨hsp, hsl⟩ : p + ls.length ≤ mem.length ∧ (mem.drop p).take ls.length = ls := by
    obtain ⟨-, -, ⟨hd, -⟩ | ⟨p', hd, h⟩⟩ := hs
    · simp [hp] at hd
    · have : p' = p := by simpa [hp] using hd.symm
      subst this
      exact h
  have htq : q + lt.length ≤ mem.length := by
    obtain ⟨-, -, ⟨hd, -⟩ | ⟨p', hd, h, -⟩⟩ := ht
    · simp [hq] at hd
    · have : p' = q := by simpa [hq] using hd.symm
      subst this
      exact h
  obtain ⟨out, e1, e2, e3⟩ := copyTo_spec mem s ls hs p q hp (by omega)
  have hlo : ((out.drop q).take ls.length).length = ls.length := by simp; omega
  refine ⟨out, (out.drop q).take ls.length, ?_, ⟨?_, ?_, .inr ⟨q, hq, ?_, ?_⟩⟩, hlo, fun k hk => ?_⟩
  · rw [copy, if_pos (by rw [hs.size, ht.size, hlen]), hq, e1]
  · rw [hlo, ← hlen]; exact ht.1
  · rw [hlo, ← hlen]; exact ht.2.1
  · rw [hlo]; omega
  · rw [hlo]
  · rw [List.getElem?_take_of_lt hk, List.getElem?_drop, e3, if_pos (by omega), Nat.add_sub_cancel_left]
    unfold sourceOf
    rw [if_pos h1, take_get hsl]
    have := Nat.mod_lt k (show 0 < q - p by omega)
    omega

example : copy "abcdefg".toList ⟨none, some 1, 3⟩ ⟨none, some 0, 3⟩ = .ok "aaaaefg".toList := by
  decide +kernel

example : copy "abcdefg".toList ⟨none, some 0, 3⟩ ⟨some 3, some 1, 3⟩ = .ok "bcddefg".toList := by
  decide +kernel

end Actl.Span
