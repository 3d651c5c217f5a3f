import Verif.Spec.Buffered
import Mathlib.Data.List.Basic

/-!
C21 (buffered writer), C22 (buffered reader).
-/

namespace Actl.Buffered

open Actl.Text Actl.Stream

/-! ### Reader -/

/-- The reader `r` has consumed `pos` characters of `data`; `rest` is only non-empty behind a
buffer with unread characters, unless the reader is fresh. -/
def Rel (data : List Byte) (pos : Nat) (r : Reader) : Prop :=
  ∃ pre, data = pre ++ r.buf ++ r.rest ∧ pos = pre.length + r.ptr ∧
    (r.buf.length < r.ptr → r.rest = [])

def Primed (r : Reader) : Prop := r.ptr < r.buf.length ∨ r.rest = []

theorem underflow_rel {B : Nat} {data : List Byte} {r : Reader}
    (h : Rel data (data.length - r.rest.length) { r with ptr := r.buf.length }) :
    Rel data (data.length - r.rest.length) (r.underflow B) := by
  obtain ⟨pre, h1, h2, _⟩ := h
  refine ⟨pre ++ r.buf, ?_, ?_, ?_⟩
  · simpa [Reader.underflow] using h1
  · simp only [Reader.underflow, List.length_append]; simpa using h2
  · intro hlt; simp [Reader.underflow] at hlt

theorem underflow_primed {B : Nat} (hB : 0 < B) (r : Reader) : Primed (r.underflow B) := by
  unfold Primed Reader.underflow
  cases h : r.rest with
  | nil => right; simp
  | cons a l => left; simp; omega

theorem move_rel {B : Nat} (hB : 0 < B) {data : List Byte} {pos : Nat} {r : Reader} {n : Nat}
    (h : Rel data pos r) (hp : Primed r) (hn : r.ptr + n ≤ r.buf.length ∨ r.rest = []) :
    Rel data (pos + n) (r.move B n) ∧ Primed (r.move B n) := by
  obtain ⟨pre, h1, h2, h3⟩ := h
  unfold Reader.move
  simp only
  split
  · rename_i heq
    refine ⟨?_, underflow_primed hB _⟩
    refine ⟨pre ++ r.buf, ?_, ?_, ?_⟩
    · simpa [Reader.underflow] using h1
    · simp only [Reader.underflow, List.length_append]; omega
    · intro hlt; simp [Reader.underflow] at hlt
  · rename_i hne
    refine ⟨⟨pre, h1, by simp only; omega, fun hlt => ?_⟩, ?_⟩
    · simp only at hlt
      rcases hn with hn | hn
      · omega
      · exact hn
    · unfold Primed
      simp only
      rcases hn with hn | hn
      · left; omega
      · right; exact hn

theorem moveBack_rel {B : Nat} (hB : 0 < B) {data : List Byte} {pos : Nat} {r r' : Reader} {k : Nat}
    (h : Rel data pos r) (hp : Primed r) (hb : r.moveBack B k = some r') :
    ∃ pos', pos' + k = pos ∧ Rel data pos' r' ∧ Primed r' := by
  obtain ⟨pre, h1, h2, h3⟩ := h
  unfold Reader.moveBack at hb
  by_cases hk : r.ptr < k
  · rw [if_pos hk] at hb; cases hb
  · rw [if_neg hk] at hb
    have hb := Option.some.inj hb
    simp only at hb
    refine ⟨pos - k, by omega, ?_⟩
    by_cases he : r.ptr - k = r.buf.length
    · rw [if_pos he] at hb
      rw [← hb]
      refine ⟨⟨pre ++ r.buf, ?_, ?_, ?_⟩, underflow_primed hB _⟩
      · simpa [Reader.underflow] using h1
      · simp only [Reader.underflow, List.length_append]; omega
      · intro hlt; simp [Reader.underflow] at hlt
    · rw [if_neg he] at hb
      rw [← hb]
      refine ⟨⟨pre, h1, by simp only; omega, fun hlt => h3 (by simp only at hlt; omega)⟩, ?_⟩
      unfold Primed at hp ⊢
      simp only
      rcases hp with hp | hp
      · left; omega
      · right; exact hp

theorem peek_rel {data : List Byte} {pos : Nat} {r : Reader} (h : Rel data pos r) (hp : Primed r) :
    r.peek = data.getD pos 0#8 := by
  obtain ⟨pre, h1, h2, h3⟩ := h
  unfold Reader.peek
  split
  · rename_i hlt
    subst h2
    rw [h1]
    simp only [List.getD_eq_getElem?_getD, List.append_assoc]
    rw [List.getElem?_append_right (by omega), List.getElem?_append_left (by omega),
      Nat.add_sub_cancel_left]
  · rename_i hge
    have hr : r.rest = [] := by
      rcases hp with hp | hp
      · omega
      · exact hp
    have : data.length ≤ pos := by rw [h1, h2, hr]; simp; omega
    simp [List.getElem?_eq_none this]

theorem drop_rel {data : List Byte} {pos : Nat} {r : Reader} (h : Rel data pos r)
    (hp : r.ptr ≤ r.buf.length) : data.drop pos = r.buf.drop r.ptr ++ r.rest := by
  obtain ⟨pre, h1, h2, h3⟩ := h
  rw [h1, h2, List.append_assoc, List.drop_append, List.drop_eq_nil_of_le (by omega)]
  simp only [List.nil_append]
  rw [List.drop_append_of_le_length (by omega)]
  congr 2
  omega

/-- `read` delivers the next characters, whether the reader is fresh or not. -/
theorem read_rel {B : Nat} (hB : 0 < B) {data : List Byte} {pos : Nat} {r : Reader} (h : Rel data pos r)
    (hp : r.ptr ≤ r.buf.length) (k : Nat) :
    ∃ r', r.read B k = some ((data.drop pos).take k, r') ∧
      Rel data (pos + min k (data.length - pos)) r' ∧ (Primed r' ) := by
  have hd := drop_rel h hp
  have hlen : data.length - pos = (r.buf.length - r.ptr) + r.rest.length := by
    have := congrArg List.length hd
    simpa using this
  unfold Reader.read
  rw [if_neg (by omega)]
  simp only
  split
  · rename_i hlt
    refine ⟨_, by rw [hd, List.take_append_of_le_length (by simp; omega)], ?_, ?_⟩
    · obtain ⟨pre, h1, h2, h3⟩ := h
      refine ⟨pre, h1, ?_, fun hlt' => ?_⟩
      · simp only; omega
      · simp only at hlt'; omega
    · left; simp only; omega
  · rename_i hge
    obtain ⟨pre, h1, h2, h3⟩ := h
    generalize hc : k - (r.buf.length - r.ptr) = count
    have hrem : count % B ≤ count := Nat.mod_le _ _
    have hremB : count % B < B := Nat.mod_lt _ hB
    have hif1 : (if count % B < count then r.rest.take (count - count % B) else []) =
        r.rest.take (count - count % B) := by
      split
      · rfl
      · rw [show count - count % B = 0 by omega]; rfl
    have hif2 : (if count % B < count then r.rest.drop (count - count % B) else r.rest) =
        r.rest.drop (count - count % B) := by
      split
      · rfl
      · rw [show count - count % B = 0 by omega]; rfl
    rw [hif1, hif2]
    simp only [Reader.underflow, List.drop_zero, Nat.sub_zero]
    generalize hm : count - count % B = m
    generalize hq : count % B = q at *
    have hkq : k = (r.buf.length - r.ptr) + (m + q) := by omega
    have hdata : data = (pre ++ r.buf ++ r.rest.take m) ++ (r.rest.drop m).take B ++
        (r.rest.drop m).drop B := by
      rw [h1]; simp only [List.append_assoc, List.take_append_drop]
    have htake : (data.drop pos).take k = r.buf.drop r.ptr ++ r.rest.take m ++ (r.rest.drop m).take q := by
      rw [hd, hkq, List.take_append, List.take_of_length_le (by simp)]
      simp only [List.length_drop, Nat.add_sub_cancel_left, List.append_assoc]
      rw [List.take_add]
    have hR : Rel data (pos + (r.buf.length - r.ptr) + min m r.rest.length)
        ⟨(r.rest.drop m).take B, 0, (r.rest.drop m).drop B⟩ := by
      refine ⟨_, hdata, ?_, fun hlt => by simp at hlt⟩
      simp only [List.length_append, List.length_take]
      omega
    have hP : Primed ⟨(r.rest.drop m).take B, 0, (r.rest.drop m).drop B⟩ :=
      underflow_primed hB ⟨[], 0, r.rest.drop m⟩
    have hmin : min q ((r.rest.drop m).take B).length = min q (r.rest.length - m) := by
      simp; omega
    rw [hmin]
    split
    · rename_i hpos
      have hmv := move_rel (n := min q (r.rest.length - m)) hB hR hP (by left; simp; omega)
      refine ⟨_, ?_, ?_, hmv.2⟩
      · rw [htake]
        congr 2
        congr 1
        rw [List.take_take, show min (min q (r.rest.length - m)) B = min q (r.rest.length - m) by omega]
        rcases Nat.le_total q (r.rest.length - m) with h' | h'
        · rw [Nat.min_eq_left h']
        · rw [Nat.min_eq_right h', List.take_of_length_le (by simp), List.take_of_length_le (by simpa using h')]
      · have := hmv.1
        rw [hlen]
        rw [show pos + min k (r.buf.length - r.ptr + r.rest.length) =
          pos + (r.buf.length - r.ptr) + min m r.rest.length + min q (r.rest.length - m) by omega]
        exact this
    · rename_i hz
      refine ⟨_, ?_, ?_, hP⟩
      · rw [htake]
        have : (r.rest.drop m).take q = [] := by
          apply List.eq_nil_of_length_eq_zero
          simp; omega
        rw [this, List.append_nil]
      · rw [hlen]
        rw [show pos + min k (r.buf.length - r.ptr + r.rest.length) =
          pos + (r.buf.length - r.ptr) + min m r.rest.length by omega]
        exact hR

theorem primed_follows {B : Nat} (hB : 0 < B) {data : List Byte} (ops : List Op) {pos : Nat} {r : Reader}
    (h : Rel data pos r) (hp : Primed r) : Follows data pos ops (r.run B ops) := by
  induction ops generalizing pos r with
  | nil => rfl
  | cons op ops ih =>
    intro hl
    have hlen : data.length - pos = (r.buf.length - r.ptr) + r.rest.length ∧
        (data.length < pos ↔ r.buf.length < r.ptr) ∧ (pos = data.length ↔ r.ptr = r.buf.length ∧ r.rest = []) := by
      obtain ⟨pre, h1, h2, h3⟩ := h
      have : data.length = pre.length + r.buf.length + r.rest.length := by
        rw [h1]; simp; omega
      rw [← List.length_eq_zero_iff] at h3 ⊢
      unfold Primed at hp
      rw [← List.length_eq_zero_iff] at hp
      omega
    by_cases hbk : ∃ k, op = .back k
    · obtain ⟨k, rfl⟩ := hbk
      cases hmb : r.moveBack B k with
      | none => left; exact ⟨⟨k, rfl⟩, by simp [Reader.run, Reader.step, hmb]⟩
      | some r' =>
        right
        obtain ⟨pos', e, h', hp'⟩ := moveBack_rel hB h hp hmb
        exact ⟨.unit, r'.run B ops, pos', by simp [Reader.run, Reader.step, hmb], ⟨rfl, e⟩, ih h' hp'⟩
    right
    cases op with
    | back k => exact absurd ⟨k, rfl⟩ hbk
    | peek =>
      refine ⟨_, _, pos, rfl, ⟨?_, rfl⟩, ih h hp⟩
      rw [peek_rel h hp]
    | get =>
      have hm := move_rel (n := 1) hB h hp (by
        rcases hp with hp | hp
        · left; omega
        · right; exact hp)
      refine ⟨_, _, pos + 1, rfl, ⟨?_, rfl⟩, ih hm.1 hm.2⟩
      simp only [Reader.get]
      rw [peek_rel h hp]
    | read k =>
      simp only [SpecLegal] at hl
      obtain ⟨r', h1, h2, h3⟩ := read_rel hB h (by omega) k
      refine ⟨.chars ((data.drop pos).take k), r'.run B ops, _, ?_, ⟨rfl, rfl⟩, ih h2 h3⟩
      simp [Reader.run, Reader.step, h1]
    | eof =>
      refine ⟨_, _, pos, rfl, ⟨?_, rfl⟩, ih h hp⟩
      simp only [Reader.eof, hlen.2.1]
    | consume k =>
      simp only [SpecLegal] at hl
      have hle : r.ptr ≤ r.buf.length := by omega
      have hd := drop_rel h hle
      have hib : r.inputBuffer = some (r.buf.drop r.ptr) := by
        unfold Reader.inputBuffer; rw [if_pos hle]
      have htl : ((r.buf.drop r.ptr).take k).length = min k (r.buf.length - r.ptr) := by simp
      have htake : (data.drop pos).take (min k (r.buf.length - r.ptr)) = (r.buf.drop r.ptr).take k := by
        rw [hd, List.take_append_of_le_length (by simp only [List.length_drop]; omega)]
        rcases Nat.le_total k (r.buf.length - r.ptr) with h' | h'
        · rw [Nat.min_eq_left h']
        · rw [Nat.min_eq_right h', List.take_of_length_le (by simp), List.take_of_length_le (by simpa using h')]
      by_cases hemp : r.ptr = r.buf.length
      · have hr : r.rest = [] := by
          rcases hp with hp | hp
          · omega
          · exact hp
        refine ⟨.chars ((data.drop pos).take 0), r.run B ops, pos, ?_, ⟨0, by omega, by omega,
          fun _ => Or.inr (by rw [hlen.2.2]; exact ⟨hemp, hr⟩), rfl, rfl⟩, ih h hp⟩
        have hnil : r.buf.drop r.ptr = [] := List.drop_eq_nil_of_le (by omega)
        simp [Reader.run, Reader.step, hib, hnil]
      · have hm := move_rel (n := min k (r.buf.length - r.ptr)) hB h hp (by left; omega)
        refine ⟨.chars ((r.buf.drop r.ptr).take k), (r.move B (min k (r.buf.length - r.ptr))).run B ops,
          _, ?_, ⟨min k (r.buf.length - r.ptr), by omega, by omega, by omega, by rw [htake], rfl⟩,
          ih hm.1 hm.2⟩
        have hne : (r.buf.drop r.ptr).isEmpty = false := by
          rw [List.isEmpty_eq_false_iff]
          intro hnil
          have := congrArg List.length hnil
          simp at this
          omega
        simp only [Reader.run, Reader.step, hib, hne, htl]
        rfl

/-- **C22** Through a buffer of any size, every sequence of calls that starts with a `read` (of any
length, even 0) delivers exactly the characters of the underlying device in order, and the end of
data exactly as the unbuffered device.  Missing for the full claim: the calls before the first
`read`, where the code is wrong (`fresh_reader_fails`). -/
theorem reader_follows_partial {B : Nat} (hB : 0 < B) (data : List Byte) (k : Nat) (ops : List Op) :
    Follows data 0 (.read k :: ops) ((Reader.fresh data).run B (.read k :: ops)) := by
  intro _
  have h0 : Rel data 0 (Reader.fresh data) := ⟨[], by simp [Reader.fresh], rfl, by simp [Reader.fresh]⟩
  obtain ⟨r', h1, h2, h3⟩ := read_rel hB h0 (Nat.le_refl _) k
  refine Or.inr ⟨.chars ((data.drop 0).take k), r'.run B ops, _, ?_, ⟨rfl, rfl⟩,
    primed_follows hB ops h2 h3⟩
  simp [Reader.run, Reader.step, h1]

/-- The state after `read(0)` and `n` calls of `get` inside the first buffer. -/
theorem run_gets {B : Nat} (data : List Byte) (ops : List Op) :
    ∀ (n p : Nat), p + n < min B data.length →
      ((⟨data.take B, p, data.drop B⟩ : Reader).run B (List.replicate n .get ++ ops)).length =
        n + ((⟨data.take B, p + n, data.drop B⟩ : Reader).run B ops).length := by
  intro n
  induction n with
  | zero => intro p _; simp
  | succ n ih =>
    intro p hp
    rw [List.replicate_succ, List.cons_append, Reader.run]
    have e : (Reader.get B ⟨data.take B, p, data.drop B⟩).2 = ⟨data.take B, p + 1, data.drop B⟩ := by
      simp only [Reader.get, Reader.move]
      rw [if_neg (by simp; omega)]
    simp only [Reader.step, e]
    rw [List.length_cons, ih (p + 1) (by omega), show p + (n + 1) = p + 1 + n by omega]
    omega

/-- **C22** Moving back inside the buffer is not refused: after `n` characters of the first buffer it
is possible to go back by any `k` up to `n` (and by `reader_follows_partial` the same characters are
then delivered again). -/
theorem reader_back {B : Nat} (data : List Byte) (n k : Nat) (hn : n < min B data.length) (hk : k ≤ n)
    (op : Op) (hop : op = .peek ∨ op = .get ∨ op = .eof) :
    ((Reader.fresh data).run B (.read 0 :: (List.replicate n .get ++ [.back k, op]))).length = n + 3 := by
  have e : (Reader.fresh data).read B 0 = some ([], ⟨data.take B, 0, data.drop B⟩) := by
    simp [Reader.read, Reader.fresh, Reader.underflow]
  rw [Reader.run]
  simp only [Reader.step, e]
  rw [List.length_cons, run_gets data _ n 0 (by omega)]
  have e2 : (Reader.moveBack B ⟨data.take B, 0 + n, data.drop B⟩ k) =
      some ⟨data.take B, n - k, data.drop B⟩ := by
    unfold Reader.moveBack
    rw [if_neg (by simp only; omega)]
    simp only [Nat.zero_add]
    rw [if_neg (by simp; omega)]
  rw [Reader.run]
  simp only [Reader.step, e2]
  rcases hop with rfl | rfl | rfl <;> simp [Reader.run, Reader.step]

/-- **C22** (negation) A character at the end of the buffer cannot be put back: when the `B` characters
of the first buffer have been read, going back by any number fails the assertion. -/
theorem reader_back_fails {B : Nat} (hB : 0 < B) (data : List Byte) (hd : B ≤ data.length) (k : Nat)
    (hk : 0 < k) (ops : List Op) :
    ((Reader.fresh data).run B (.read 0 :: (List.replicate B .get ++ .back k :: ops))).length = B + 1 := by
  have e : (Reader.fresh data).read B 0 = some ([], ⟨data.take B, 0, data.drop B⟩) := by
    simp [Reader.read, Reader.fresh, Reader.underflow]
  rw [Reader.run]
  simp only [Reader.step, e]
  obtain ⟨b, rfl⟩ : ∃ b, B = b + 1 := ⟨B - 1, by omega⟩
  rw [List.length_cons, List.replicate_succ', List.append_assoc, run_gets data _ b 0 (by omega)]
  have e2 : (Reader.get (b + 1) ⟨data.take (b + 1), 0 + b, data.drop (b + 1)⟩).2 =
      Reader.underflow (b + 1) ⟨data.take (b + 1), 0 + b + 1, data.drop (b + 1)⟩ := by
    simp only [Reader.get, Reader.move]
    rw [if_pos (by simp; omega)]
  rw [List.cons_append, List.nil_append, Reader.run]
  simp only [Reader.step, e2]
  have e3 : Reader.moveBack (b + 1) (Reader.underflow (b + 1)
      ⟨data.take (b + 1), 0 + b + 1, data.drop (b + 1)⟩) k = none := by
    unfold Reader.moveBack
    exact if_pos hk
  rw [Reader.run]
  simp only [Reader.step, e3]
  simp

/-- Going back by two of three characters. -/
example : (Reader.fresh (bytes "hello world")).run 4 [.read 0, .get, .get, .get, .back 2, .get, .peek] =
    [.chars [], .char (lit 'h'), .char (lit 'e'), .char (lit 'l'), .unit, .char (lit 'e'), .char (lit 'l')] := by
  decide +kernel

example : (Reader.fresh (bytes "hello world")).run 4
    [.read 0, .get, .consume 9, .peek, .consume 2, .read 4, .eof, .read 5, .get, .eof] =
    [.chars [], .char (lit 'h'), .chars (bytes "ell"), .char (lit 'o'), .chars (bytes "o "),
     .chars (bytes "worl"), .bool false, .chars (bytes "d"), .char 0#8, .bool true] := by
  decide +kernel

/-- **C22** (negation) Before the first `read`, *every* buffered reader looks exhausted, whatever
data there is: `peek` and `get` return the null character, the input buffer is empty (so that no
value can be parsed), and after the `get` the end of data is reported. -/
theorem fresh_reader_fails (B : Nat) (data : List Byte) :
    (Reader.fresh data).run B [.peek, .consume 1, .get, .eof] =
      [.char 0#8, .chars [], .char 0#8, .bool true] := rfl

/-! ### Writer -/

theorem writer_put {w : Writer} (hw : w.ptr < w.buf.length) (c : Byte) :
    (w.put c).buf.length = w.buf.length ∧ (w.put c).ptr = (w.ptr + 1) % w.buf.length ∧
    (w.put c).sink ++ (w.put c).buf.take (w.put c).ptr = w.sink ++ w.buf.take w.ptr ++ [c] := by
  have ht : (w.buf.set w.ptr c).take (w.ptr + 1) = w.buf.take w.ptr ++ [c] := by
    rw [List.set_eq_take_append_cons_drop, if_pos hw, List.take_append]
    simp [List.take_of_length_le, Nat.min_eq_left (Nat.le_of_lt hw)]
  unfold Writer.put Writer.move
  simp only [List.length_set]
  split
  · rename_i heq
    simp only [Writer.overflow, List.length_set, heq, Nat.mod_self, List.take_zero, List.append_nil, true_and]
    rw [← heq, ht]; simp
  · rename_i hne
    simp only [List.length_set, true_and]
    rw [Nat.mod_eq_of_lt (by omega)]
    refine ⟨rfl, ?_⟩
    rw [ht]; simp

theorem writer_write {w : Writer} (hw : w.ptr < w.buf.length) (s : List Byte) :
    (w.write s).buf.length = w.buf.length ∧ (w.write s).ptr < w.buf.length ∧
    (if w.ptr + s.length < w.buf.length ∨ (w.ptr + s.length) % w.buf.length ≠ 0 ∨ w.ptr = 0 then
      (w.write s).ptr = (w.ptr + s.length) % w.buf.length ∧
      (w.write s).sink ++ (w.write s).buf.take (w.write s).ptr = w.sink ++ w.buf.take w.ptr ++ s
    else
      (w.write s).ptr = w.ptr ∧
      (w.write s).sink ++ (w.write s).buf.take (w.write s).ptr =
        w.sink ++ w.buf.take w.ptr ++ s ++ w.buf.take w.ptr) := by
  have hlt : (w.buf.take w.ptr).length = w.ptr := by simp; omega
  unfold Writer.write
  simp only
  by_cases h1 : s.length < w.buf.length - w.ptr
  · rw [if_pos h1, if_pos (Or.inl (by omega))]
    simp only
    refine ⟨by simp; omega, by omega, (Nat.mod_eq_of_lt (by omega)).symm, ?_⟩
    rw [List.take_append_of_le_length (by simp; omega), List.take_of_length_le (by simp; omega)]
    simp
  · rw [if_neg h1]
    have hmod : (s.length - (w.buf.length - w.ptr)) % w.buf.length = (w.ptr + s.length) % w.buf.length := by
      rw [show w.ptr + s.length = s.length - (w.buf.length - w.ptr) + w.buf.length by omega,
        Nat.add_mod_right]
    generalize hq : (w.ptr + s.length) % w.buf.length = q at *
    rw [hmod]
    have hqB : q < w.buf.length := by rw [← hq]; exact Nat.mod_lt _ (by omega)
    have hqc : q ≤ s.length - (w.buf.length - w.ptr) := by rw [← hmod]; exact Nat.mod_le _ _
    generalize ha : w.buf.length - w.ptr = a at *
    have hsal : (s.take a).length = a := by simp; omega
    have hblen : (w.buf.take w.ptr ++ s.take a).length = w.buf.length := by
      simp only [List.length_append, hlt, hsal]; omega
    have hif1 : (if q < s.length - a then w.sink ++ (w.buf.take w.ptr ++ s.take a) ++
          (s.drop a).take (s.length - a - q) else w.sink ++ (w.buf.take w.ptr ++ s.take a)) =
        w.sink ++ (w.buf.take w.ptr ++ s.take a) ++ (s.drop a).take (s.length - a - q) := by
      split
      · rfl
      · rw [show s.length - a - q = 0 by omega]; simp
    have hif2 : (if q < s.length - a then (s.drop a).drop (s.length - a - q) else s.drop a) =
        (s.drop a).drop (s.length - a - q) := by
      split
      · rfl
      · rw [show s.length - a - q = 0 by omega]; simp
    rw [hif1, hif2]
    have hdl : ((s.drop a).drop (s.length - a - q)).length = q := by simp; omega
    by_cases h0 : 0 < q
    · rw [if_pos h0, if_pos (Or.inr (Or.inl (by omega)))]
      simp only
      refine ⟨?_, hqB, trivial, ?_⟩
      · rw [List.length_append, List.length_take, hdl, List.length_drop, hblen]; omega
      · have e1 : ((s.drop a).drop (s.length - a - q)).take q = (s.drop a).drop (s.length - a - q) :=
          List.take_of_length_le (by omega)
        rw [e1, List.take_append_of_le_length (by omega), e1]
        simp only [List.append_assoc, List.take_append_drop]
    · have hq0 : q = 0 := by omega
      subst hq0
      rw [if_neg (by omega)]
      have hsend : (s.drop a).take (s.length - a - 0) = s.drop a :=
        List.take_of_length_le (by simp)
      rw [hsend]
      simp only
      refine ⟨hblen, hw, ?_⟩
      have hpend : (w.buf.take w.ptr ++ s.take a).take w.ptr = w.buf.take w.ptr := by
        rw [List.take_append_of_le_length (by omega), List.take_of_length_le (by omega)]
      by_cases hp0 : w.ptr = 0
      · rw [if_pos (Or.inr (Or.inr hp0))]
        refine ⟨hp0, ?_⟩
        rw [hpend, hp0]; simp
      · rw [if_neg (by omega)]
        refine ⟨trivial, ?_⟩
        rw [hpend]
        simp only [List.append_assoc, List.take_append_drop]

/-- **C21** Writing through a buffer of any size (at least 1, with any initial contents): as long
as no span write ends exactly on a boundary of the buffer while characters of earlier writes are
waiting, the underlying device receives exactly the characters written, in order, once.  Missing
for the full claim: the other histories, where the code is wrong (`writer_iff`,
`writer_duplicates`). -/
theorem writer_correct_partial (ops : List WOp) (w : Writer) (hw : w.ptr < w.buf.length)
    (h : NoBoundary w.buf.length w.ptr ops) :
    w.received ops = w.sink ++ w.buf.take w.ptr ++ written ops := by
  induction ops generalizing w with
  | nil => simp [Writer.received, Writer.flush, Writer.overflow, written]
  | cons op ops ih =>
    have hrec : w.received (op :: ops) = (w.step op).received ops := rfl
    rw [hrec]
    cases op with
    | put c =>
      obtain ⟨h1, h2, h3⟩ := writer_put hw c
      have hlt : (w.put c).ptr < (w.put c).buf.length := by
        rw [h1, h2]; exact Nat.mod_lt _ (by omega)
      rw [Writer.step, ih _ hlt (by rw [h1, h2]; exact h), h3]
      simp [written]
    | write s =>
      obtain ⟨hb, hrest⟩ := h
      obtain ⟨h1, h2, h3⟩ := writer_write hw s
      rw [if_pos hb] at h3
      rw [Writer.step, ih _ (by rw [h1]; exact h2) (by rw [h1, h3.1]; exact hrest), h3.2]
      simp [written]
    | flush =>
      rw [Writer.step, ih _ (by simp only [Writer.flush, Writer.overflow]; omega) h]
      simp [Writer.flush, Writer.overflow, written]

/-- From a new writer. -/
theorem fresh_writer_correct_partial (buf : List Byte) (hB : buf ≠ []) (ops : List WOp)
    (h : NoBoundary buf.length 0 ops) : (Writer.fresh buf).received ops = written ops := by
  rw [writer_correct_partial ops _ (by simpa [Writer.fresh] using List.length_pos_iff.mpr hB) h]
  simp [Writer.fresh]

example : (Writer.fresh (bytes "....")).received
    [.write (bytes "ab"), .put (lit 'c'), .write (bytes "defghijk"), .put (lit 'm'), .flush,
     .write (bytes "nopq"), .put (lit 'r')] = bytes "abcdefghijkmnopqr" := by decide +kernel

theorem received_length_ge (ops : List WOp) (w : Writer) (hw : w.ptr < w.buf.length) :
    w.sink.length + w.ptr + (written ops).length ≤ (w.received ops).length := by
  induction ops generalizing w with
  | nil => simp [Writer.received, Writer.flush, Writer.overflow, written]; omega
  | cons op ops ih =>
    have hrec : w.received (op :: ops) = (w.step op).received ops := rfl
    rw [hrec]
    have hlt : (w.buf.take w.ptr).length = w.ptr := by simp; omega
    cases op with
    | put c =>
      obtain ⟨h1, h2, h3⟩ := writer_put hw c
      have hlt' : (w.put c).ptr < (w.put c).buf.length := by
        rw [h1, h2]; exact Nat.mod_lt _ (by omega)
      have := ih _ hlt'
      have h4 := congrArg List.length h3
      simp only [List.length_append, hlt, List.length_take, List.length_singleton] at h4
      simp only [Writer.step, written, List.length_cons]
      omega
    | write s =>
      obtain ⟨h1, h2, h3⟩ := writer_write hw s
      have := ih _ (by rw [h1]; exact h2)
      simp only [Writer.step, written, List.length_append]
      split at h3
      · have h4 := congrArg List.length h3.2
        simp only [List.length_append, hlt, List.length_take] at h4
        omega
      · have h4 := congrArg List.length h3.2
        simp only [List.length_append, hlt, List.length_take] at h4
        omega
    | flush =>
      have := ih w.flush (by simp only [Writer.flush, Writer.overflow]; omega)
      have hs : w.flush.sink.length = w.sink.length + w.ptr := by
        simp only [Writer.flush, Writer.overflow, List.length_append, hlt]
      simp only [Writer.step, written]
      omega

/-- **C21** (exactly when) The underlying device receives what was written *if and only if* no span
write ends on a buffer boundary with characters waiting. -/
theorem writer_iff (ops : List WOp) (w : Writer) (hw : w.ptr < w.buf.length) :
    w.received ops = w.sink ++ w.buf.take w.ptr ++ written ops ↔ NoBoundary w.buf.length w.ptr ops := by
  refine ⟨?_, writer_correct_partial ops w hw⟩
  induction ops generalizing w with
  | nil => intro _; trivial
  | cons op ops ih =>
    have hrec : w.received (op :: ops) = (w.step op).received ops := rfl
    rw [hrec]
    intro h
    have hlt : (w.buf.take w.ptr).length = w.ptr := by simp; omega
    cases op with
    | put c =>
      obtain ⟨h1, h2, h3⟩ := writer_put hw c
      have hlt' : (w.put c).ptr < (w.put c).buf.length := by
        rw [h1, h2]; exact Nat.mod_lt _ (by omega)
      have := ih _ hlt' (by rw [h3]; simpa [written, Writer.step] using h)
      rwa [h1, h2] at this
    | write s =>
      obtain ⟨h1, h2, h3⟩ := writer_write hw s
      by_cases hb : w.ptr + s.length < w.buf.length ∨ (w.ptr + s.length) % w.buf.length ≠ 0 ∨ w.ptr = 0
      · rw [if_pos hb] at h3
        have := ih _ (by rw [h1]; exact h2) (by rw [h3.2]; simpa [written, Writer.step] using h)
        rw [h1, h3.1] at this
        exact ⟨hb, this⟩
      · rw [if_neg hb] at h3
        exfalso
        have hge := received_length_ge ops (w.write s) (by rw [h1]; exact h2)
        have h4 := congrArg List.length h3.2
        have h5 := congrArg List.length h
        simp only [List.length_append, hlt, List.length_take, written, Writer.step] at h4 h5
        omega
    | flush =>
      have := ih w.flush (by simp only [Writer.flush, Writer.overflow]; omega)
        (by simpa [Writer.flush, Writer.overflow, written, Writer.step] using h)
      simpa [Writer.flush, Writer.overflow, NoBoundary] using this

/-- **C21** (negation) After writing any `pre` that fits, a write of any `s` that ends exactly on a
buffer boundary makes the device receive `pre` twice. -/
theorem writer_duplicates (buf pre s : List Byte) (hp : pre ≠ []) (hB : pre.length < buf.length)
    (hs : (pre.length + s.length) % buf.length = 0) (hs' : s ≠ []) :
    (Writer.fresh buf).received [.write pre, .write s] = pre ++ s ++ pre := by
  have hw : (Writer.fresh buf).ptr < (Writer.fresh buf).buf.length := by
    simp only [Writer.fresh]; omega
  have hpl := List.length_pos_iff.mpr hp
  have hsl := List.length_pos_iff.mpr hs'
  obtain ⟨h1, h2, h3⟩ := writer_write hw pre
  simp only [Writer.fresh, Nat.zero_add, or_true, if_true, List.take_zero, List.append_nil, List.nil_append] at h1 h2 h3
  rw [Nat.mod_eq_of_lt hB] at h3
  change _ at h1
  generalize hw' : Writer.write ⟨buf, 0, []⟩ pre = w' at *
  obtain ⟨g1, g2, g3⟩ := writer_write (w := w') (by rw [h1]; exact h2) s
  have hge : ¬ (pre.length + s.length < buf.length) := by
    intro hlt
    rw [Nat.mod_eq_of_lt hlt] at hs
    omega
  rw [h1, h3.1, if_neg (by omega)] at g3
  have hrec : (Writer.fresh buf).received [.write pre, .write s] =
      (w'.write s).sink ++ (w'.write s).buf.take (w'.write s).ptr := by
    rw [← hw']; rfl
  rw [hrec, g3.2, ← h3.1, h3.2]
  have hpre : w'.buf.take w'.ptr = pre := by
    have hsink : w'.sink = [] := by
      rw [← hw']
      unfold Writer.write
      simp only [Nat.sub_zero]
      rw [if_pos hB]
    simpa [hsink] using h3.2
  rw [hpre]

example : (Writer.fresh (bytes "....")).received [.write (bytes "ab"), .write (bytes "cd")] =
    bytes "abcdab" := by decide +kernel

end Actl.Buffered
