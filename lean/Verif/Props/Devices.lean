import Verif.Model.Devices
import Mathlib.Tactic.Ring

/-!
C19 (memory device), C20 (string device).
-/

namespace Actl.Device

open Actl.Text Actl.Stream

theorem remaining_eq {len pos : Nat} (h : pos ≤ len) (hl : len < 2 ^ 64) :
    remaining len pos = len - pos := by
  unfold remaining
  rw [Int.emod_eq_of_lt] <;> omega

theorem remaining_past {len pos : Nat} (h : len < pos) (hl : pos < 2 ^ 63) :
    2 ^ 63 ≤ remaining len pos := by
  unfold remaining
  rw [← Int.add_emod_right, Int.emod_eq_of_lt] <;> omega

/-! ### Memory -/

theorem mem_step {data : List Byte} {pos : Nat} {op : Op} (hl : data.length < 2 ^ 64)
    (h : Legal data pos op) :
    Mem.step ⟨data, pos⟩ op = some ((Stream.step data pos op).1, ⟨data, (Stream.step data pos op).2⟩) := by
  have hpeek : Mem.peek ⟨data, pos⟩ = some (data.getD pos 0#8) := by
    unfold Mem.peek
    by_cases hp : pos < data.length
    · simp [hp]
    · simp [hp, List.getElem?_eq_none (Nat.le_of_not_lt hp)]
  cases op with
  | peek => simp [Mem.step, Stream.step, hpeek]
  | get => simp [Mem.step, Stream.step, Mem.get, hpeek]
  | read k =>
    simp only [Legal] at h
    have hr := remaining_eq h hl
    simp only [Mem.step, Mem.read, Stream.step]
    rw [hr]
    have hin : inside data.length (pos : Int) (min k (data.length - pos)) = true := by
      unfold inside
      simp only [Bool.or_eq_true, decide_eq_true_eq, Bool.and_eq_true]
      omega
    rw [hin]
    simp only [if_true, Int.toNat_natCast]
    have hlen : ((data.drop pos).take k).length = min k (data.length - pos) := by simp
    have htake : (data.drop pos).take (min k (data.length - pos)) = (data.drop pos).take k := by
      rcases Nat.le_total k (data.length - pos) with h' | h'
      · rw [Nat.min_eq_left h']
      · rw [Nat.min_eq_right h', List.take_of_length_le (by simp), List.take_of_length_le (by simpa using h')]
    rw [htake, hlen]
    simp
  | move off =>
    simp only [Legal] at h
    simp [Mem.step, Stream.step, Mem.move, h.1]
  | eof => simp [Mem.step, Stream.step, Mem.eof]

/-- **C19** (reading) Every sequence of `peek`, `get`, `read`, `move`, `eof` calls that does not
read after overrunning the end, and moves within the span, behaves like a cursor over the bytes
of the span, and never touches memory outside.  Missing for the full claim: `read` after `get` at
the end, where the code is wrong (`mem_read_past_ub`). -/
theorem mem_run_partial {data : List Byte} (hl : data.length < 2 ^ 64) (ops : List Op) (pos : Nat)
    (h : LegalRun data pos ops) : Mem.run ⟨data, pos⟩ ops = some (Stream.run data pos ops) := by
  induction ops generalizing pos with
  | nil => rfl
  | cons op ops ih =>
    obtain ⟨h1, h2⟩ := h
    simp only [Mem.run, mem_step hl h1, ih _ h2, Stream.run]

example : LegalRun (bytes "hello") 0
    [.peek, .get, .read 3, .move (-2), .get, .read 9, .eof, .get, .eof, .move (-1), .read 1] := by
  decide +kernel
example : Mem.run ⟨bytes "hello", 0⟩ [.get, .read 3, .read 9, .get, .eof] =
    some [.char (lit 'h'), .chars (bytes "ell"), .chars (bytes "o"), .char 0#8, .bool true] := by
  decide +kernel

/-- **C19** (negation) After a `get` at the end of *any* span, every non-empty `read` (shorter than
`2^63`) accesses memory beyond the span. -/
theorem mem_read_past_ub {data : List Byte} (hl : data.length < 2 ^ 62) {k : Nat} (hk : 0 < k)
    (hk' : k < 2 ^ 63) : Mem.run ⟨data, data.length⟩ [.get, .read k] = none := by
  have hr : 2 ^ 63 ≤ remaining data.length ((data.length + 1 : Nat) : Int) :=
    remaining_past (by omega) (by omega)
  have hr' : 2 ^ 63 ≤ remaining data.length ((data.length : Int) + 1) := by
    have : ((data.length + 1 : Nat) : Int) = (data.length : Int) + 1 := by push_cast; rfl
    rw [← this]; exact hr
  simp only [Mem.run, Mem.step, Mem.get, Mem.peek, Int.lt_irrefl, if_false, Mem.read]
  rw [Nat.min_eq_left (by omega)]
  have : inside data.length ((data.length : Int) + 1) k = false := by
    unfold inside
    simp only [Bool.or_eq_false_iff, decide_eq_false_iff_not, Bool.and_eq_false_iff]
    omega
  rw [this]
  rfl

example : Mem.run ⟨bytes "abc", 3⟩ [.get, .read 1] = none := by decide +kernel

/-- The same for a write of a span. -/
theorem mem_write_past_ub {data : List Byte} {pos : Nat} (hp : data.length < pos) (hp' : pos < 2 ^ 63)
    {s : List Byte} (hs : s ≠ []) (hs' : s.length < 2 ^ 63) : Mem.write ⟨data, pos⟩ s = none := by
  have hr := remaining_past hp hp'
  have : 0 < s.length := List.length_pos_iff.mpr hs
  unfold Mem.write
  simp only
  rw [Nat.min_eq_left (by omega)]
  have : inside data.length (pos : Int) s.length = false := by
    unfold inside
    simp only [Bool.or_eq_false_iff, decide_eq_false_iff_not, Bool.and_eq_false_iff]
    omega
  rw [this]
  rfl

/-- One write within the span. -/
theorem mem_write {data : List Byte} (hl : data.length < 2 ^ 64) {pos : Nat} (hp : pos ≤ data.length)
    (s : List Byte) :
    Mem.write ⟨data, pos⟩ s = some (min s.length (data.length - pos),
      ⟨data.take pos ++ s.take (data.length - pos) ++ data.drop (pos + s.length),
       ((pos + min s.length (data.length - pos) : Nat) : Int)⟩) := by
  unfold Mem.write
  simp only
  rw [remaining_eq hp hl]
  have hin : inside data.length (pos : Int) (min s.length (data.length - pos)) = true := by
    unfold inside
    simp only [Bool.or_eq_true, decide_eq_true_eq, Bool.and_eq_true]
    omega
  rw [hin]
  simp only [if_true, Int.toNat_natCast]
  rcases Nat.le_total s.length (data.length - pos) with h | h
  · rw [Nat.min_eq_left h, List.take_of_length_le h, List.take_of_length_le (Nat.le_refl _)]
    simp
  · rw [Nat.min_eq_right h]
    rw [List.drop_eq_nil_of_le (by omega : data.length ≤ pos + (data.length - pos)),
      List.drop_eq_nil_of_le (by omega : data.length ≤ pos + s.length)]
    simp

/-- **C19** (writing) Any sequence of writes stores the concatenation of the data, as much of it as
fits between the cursor and the end, reports exactly the number of bytes stored, changes nothing
else and never touches memory outside of the span. -/
theorem mem_writes {data : List Byte} (hl : data.length < 2 ^ 64) (ss : List (List Byte)) {pos : Nat}
    (hp : pos ≤ data.length) :
    Mem.writes ⟨data, pos⟩ ss = some (min ss.flatten.length (data.length - pos),
      ⟨data.take pos ++ ss.flatten.take (data.length - pos) ++ data.drop (pos + ss.flatten.length),
       ((pos + min ss.flatten.length (data.length - pos) : Nat) : Int)⟩) := by
  induction ss generalizing data pos with
  | nil => simp [Mem.writes]
  | cons s ss ih =>
    have hlen : (data.take pos ++ s.take (data.length - pos) ++ data.drop (pos + s.length)).length =
        data.length := by simp; omega
    simp only [Mem.writes, mem_write hl hp, List.flatten_cons, List.length_append]
    rw [ih (by rw [hlen]; exact hl) (by rw [hlen]; omega)]
    rw [hlen]
    rcases Nat.le_total s.length (data.length - pos) with h | h
    · rw [Nat.min_eq_left h, List.take_of_length_le h]
      simp only [Option.some.injEq, Prod.mk.injEq, Mem.mk.injEq]
      refine ⟨by omega, ?_, by omega⟩
      have e1 : (data.take pos ++ s ++ data.drop (pos + s.length)).take (pos + s.length) =
          data.take pos ++ s := by
        rw [List.take_append_of_le_length (by simp; omega), List.take_of_length_le (by simp)]
      have e2 : (data.take pos ++ s ++ data.drop (pos + s.length)).drop (pos + s.length + ss.flatten.length) =
          data.drop (pos + (s.length + ss.flatten.length)) := by
        rw [List.drop_append, List.drop_eq_nil_of_le (by simp; omega), List.drop_drop]
        simp only [List.length_append, List.length_take, List.nil_append]
        congr 1
        omega
      rw [e1, e2, List.take_append, List.take_of_length_le h, Nat.sub_add_eq]
      simp only [List.append_assoc]
    · rw [Nat.min_eq_right h]
      have e0 : data.drop (pos + s.length) = [] := List.drop_eq_nil_of_le (by omega)
      have e0' : data.drop (pos + (s.length + ss.flatten.length)) = [] := List.drop_eq_nil_of_le (by omega)
      have hz : data.length - (pos + (data.length - pos)) = 0 := by omega
      have hlen2 : (data.take pos ++ s.take (data.length - pos)).length = data.length := by
        simp; omega
      rw [e0, e0', hz]
      simp only [List.append_nil, Nat.min_zero, Nat.add_zero, List.take_zero]
      rw [List.take_of_length_le (by omega), List.drop_eq_nil_of_le (by omega),
        List.take_append_of_le_length h]
      simp only [List.append_nil, Option.some.injEq, Prod.mk.injEq, Mem.mk.injEq, true_and]
      refine ⟨by omega, by omega⟩

example : Mem.writes ⟨bytes "......", 1⟩ [bytes "ab", bytes "", bytes "cdef"] =
    some (5, ⟨bytes ".abcde", 6⟩) := by decide +kernel

/-- **C19** Any mixture of reading and writing calls that does not transfer a span after
overrunning the end, and moves within the span, behaves like a cursor that reads and overwrites
the bytes of the span: all the outputs and the final contents agree, the length never changes and
nothing outside is touched. -/
theorem mem_io_partial (ops : List IOOp) {data : List Byte} (hl : data.length < 2 ^ 64) (pos : Nat)
    (h : IOLegalRun data pos ops) :
    Mem.ioRun ⟨data, pos⟩ ops = some (Stream.ioRun data pos ops) := by
  induction ops generalizing data pos with
  | nil => rfl
  | cons op ops ih =>
    obtain ⟨h1, h2⟩ := h
    have hstep : Mem.ioStep ⟨data, pos⟩ op = some ((Stream.ioStep data pos op).1,
        ⟨(Stream.ioStep data pos op).2.1, (Stream.ioStep data pos op).2.2⟩) := by
      cases op with
      | rd op => exact mem_step hl h1
      | put c =>
        simp only [Mem.ioStep, Mem.write1, Stream.ioStep]
        by_cases hp : pos < data.length
        · rw [if_neg (by omega), if_pos (by omega)]
          have h1 : min 1 (data.length - pos) = 1 := by omega
          simp only [h1, Int.toNat_natCast, overwrite]
          rw [List.take_of_length_le (l := [c]) (by simp only [List.length_singleton]; omega),
            List.set_eq_take_append_cons_drop, if_pos hp]
          simp
        · rw [if_pos (by omega)]
          have h1 : min 1 (data.length - pos) = 0 := by omega
          have h2 : data.length - pos = 0 := by omega
          simp only [h1, h2, overwrite]
          rw [List.take_of_length_le (by omega : data.length ≤ pos),
            List.drop_eq_nil_of_le (by simp; omega)]
          simp
      | write s =>
        simp only [Mem.ioStep, mem_write hl h1, Stream.ioStep, overwrite]
    have hlen : (Stream.ioStep data pos op).2.1.length = data.length := by
      cases op <;> simp [Stream.ioStep, overwrite] <;> omega
    simp only [Mem.ioRun, hstep]
    rw [ih (by rw [hlen]; exact hl) _ h2]
    rfl

example : Mem.ioRun ⟨bytes "hello", 0⟩
    [.rd .get, .write (bytes "ipp"), .rd (.move (-2)), .rd .peek, .put (lit 'P'), .rd (.read 5),
     .put (lit '!'), .rd .get, .put (lit '!'), .rd .eof] =
    some ([.char (lit 'h'), .count 3, .unit, .char (lit 'p'), .count 1, .chars (bytes "po"),
      .count 0, .char 0#8, .count 0, .bool true], bytes "hiPpo") := by decide +kernel

/-- **C19** (negation) On characters of several bytes `read` stores the right characters only if
the destination already contained all but the first `count` bytes of them. -/
theorem readWide_iff (count : Nat) (src dst : List Byte) :
    Mem.readWide count src dst = src ↔ dst.drop count = src.drop count := by
  unfold Mem.readWide
  constructor
  · intro h
    exact List.append_cancel_left (h.trans (List.take_append_drop count src).symm)
  · intro h
    rw [h, List.take_append_drop]

/-- In particular no destination filled with a byte different from the last byte of the data can
receive one or more wide characters. -/
theorem readWide_fails {size count : Nat} (hs : 2 ≤ size) (hc : 1 ≤ count) {src : List Byte}
    (hsrc : src.length = size * count) (b : Byte) (hb : src.getLast? ≠ some b) :
    Mem.readWide count src (List.replicate (size * count) b) ≠ src := by
  rw [Ne, readWide_iff]
  intro h
  have h2 : 2 * count ≤ size * count := Nat.mul_le_mul_right _ hs
  have := congrArg List.getLast? h
  rw [List.getLast?_drop, List.getLast?_drop, if_neg (by simp; omega), if_neg (by omega)] at this
  apply hb
  rw [← this, List.getLast?_replicate, if_neg (by omega)]

example : Mem.readWide 1 [0x41#8, 0x04#8] [0#8, 0#8] = [0x41#8, 0#8] := by decide

/-! ### String -/

theorem str_step {s : List Byte} {pos : Nat} {op : Op} (hl : s.length < 2 ^ 63) (hp : pos < 2 ^ 63)
    (h : Legal s pos op) :
    Str.step ⟨s, pos⟩ op = some ((Stream.step s pos op).1, ⟨s, (Stream.step s pos op).2⟩) := by
  have hpeek : Str.peek ⟨s, pos⟩ = s.getD pos 0#8 := by
    unfold Str.peek
    by_cases hp : pos < s.length
    · simp [hp]
    · simp [hp, List.getElem?_eq_none (Nat.le_of_not_lt hp)]
  cases op with
  | peek => simp [Str.step, Stream.step, hpeek]
  | get =>
    simp only [Str.step, Stream.step, Str.get, hpeek]
    rw [Nat.mod_eq_of_lt (by omega)]
  | read k =>
    simp only [Legal] at h
    have hr := remaining_eq h (by omega)
    simp only [Str.step, Str.read, Stream.step]
    rw [hr]
    have hin : inside s.length (pos : Int) (min k (s.length - pos)) = true := by
      unfold inside
      simp only [Bool.or_eq_true, decide_eq_true_eq, Bool.and_eq_true]
      omega
    rw [hin]
    simp only [if_true]
    have hlen : ((s.drop pos).take k).length = min k (s.length - pos) := by simp
    have htake : (s.drop pos).take (min k (s.length - pos)) = (s.drop pos).take k := by
      rcases Nat.le_total k (s.length - pos) with h' | h'
      · rw [Nat.min_eq_left h']
      · rw [Nat.min_eq_right h', List.take_of_length_le (by simp), List.take_of_length_le (by simpa using h')]
    rw [htake, hlen]
  | move off =>
    simp only [Legal] at h
    simp only [Str.step, Stream.step, Str.move]
    rw [Int.emod_eq_of_lt h.1 (by omega)]
  | eof => simp [Str.step, Stream.step, Str.eof]

/-- **C20** (reading) Every sequence of calls that does not read after overrunning the end, and
moves within the string, returns the characters of the string in order, short at the end, and
reads nothing outside of it.  (The position cannot wrap around in fewer than `2^63` calls.)  Missing for the full claim: `read` after `get` at the end (`str_read_past_ub`). -/
theorem str_run_partial {s : List Byte} (ops : List Op) (pos : Nat)
    (hp : max pos s.length + ops.length < 2 ^ 63) (h : LegalRun s pos ops) :
    Str.run ⟨s, pos⟩ ops = some (Stream.run s pos ops) := by
  induction ops generalizing pos with
  | nil => rfl
  | cons op ops ih =>
    obtain ⟨h1, h2⟩ := h
    simp only [List.length_cons] at hp
    have hnext : (Stream.step s pos op).2 ≤ max (pos + 1) s.length := by
      cases op with
      | peek => simp only [Stream.step]; omega
      | get => simp only [Stream.step]; omega
      | read k => simp only [Stream.step, List.length_take, List.length_drop]; omega
      | move off => simp only [Legal] at h1; simp only [Stream.step]; omega
      | eof => simp only [Stream.step]; omega
    simp only [Str.run, str_step (by omega) (by omega : pos < 2 ^ 63) h1]
    rw [ih _ (by omega) h2]
    rfl

example : Str.run ⟨bytes "hello", 0⟩ [.get, .read 3, .read 9, .get, .eof] =
    some [.char (lit 'h'), .chars (bytes "ell"), .chars (bytes "o"), .char 0#8, .bool true] := by
  decide +kernel

/-- **C20** (negation) `read` after `get` at the end of any string reads outside of it. -/
theorem str_read_past_ub {s : List Byte} (hl : s.length < 2 ^ 62) {k : Nat} (hk : 0 < k)
    (hk' : k < 2 ^ 63) : Str.run ⟨s, s.length⟩ [.get, .read k] = none := by
  have hr : 2 ^ 63 ≤ remaining s.length ((s.length + 1 : Nat) : Int) :=
    remaining_past (by omega) (by omega)
  simp only [Str.run, Str.step, Str.get, Str.read]
  rw [Nat.mod_eq_of_lt (by omega), Nat.min_eq_left (by omega)]
  have : inside s.length ((s.length + 1 : Nat) : Int) k = false := by
    unfold inside
    simp only [Bool.or_eq_false_iff, decide_eq_false_iff_not, Bool.and_eq_false_iff]
    omega
  rw [this]
  rfl

/-- **C20** (writing) Everything written is appended in order, after the previous content or, with
truncation, after nothing; every write reports all its characters. -/
theorem str_writes (trunc : Bool) (s : List Byte) (xs : List (Byte ⊕ List Byte)) :
    let all := xs.flatMap (fun | .inl c => [c] | .inr x => x)
    (Str.init trunc s).writes xs = (all.length, ⟨(if trunc then [] else s) ++ all, 0⟩) := by
  have key : ∀ (xs : List (Byte ⊕ List Byte)) (s : List Byte) (p : Nat), Str.writes ⟨s, p⟩ xs =
      ((xs.flatMap (fun | .inl c => [c] | .inr x => x)).length,
        ⟨s ++ xs.flatMap (fun | .inl c => [c] | .inr x => x), p⟩) := by
    intro xs
    induction xs with
    | nil => intro s p; simp [Str.writes]
    | cons x xs ih =>
      intro s p
      cases x with
      | inl c => simp [Str.writes, Str.write1, ih]; omega
      | inr x => simp [Str.writes, Str.write, ih]
  exact key xs _ 0

example : (Str.init true (bytes "old")).writes [.inr (bytes "ab"), .inl (lit 'c')] =
    (3, ⟨bytes "abc", 0⟩) := by decide +kernel

end Actl.Device
