import Verif.Model.LineBuffered
import Mathlib.Data.List.TakeWhile

/-!
# C79: line buffered devices

* `line_reader_all`: without zero characters in the file, and with room for two characters at least,
  all of the file is read, in order.
* `line_reader_piece`: no piece goes beyond the end of a line.
* `line_reader_one`, `line_reader_zero_char`, `line_reader_span`: where the reader is wrong.
* `line_writer_all`, `line_writer_flushed`: the writer passes everything on and flushes up to the
  last line end of each write (but the function then ends without a `return`).
-/

namespace Actl.LineBuf

theorem fgetsTake_prefix : ∀ (n : Nat) (f : List Char), fgetsTake n f <+: f
  | 0, f => by simp [fgetsTake]
  | _ + 1, [] => by simp [fgetsTake]
  | n + 1, c :: cs => by
    rw [fgetsTake]
    split_ifs
    · exact ⟨cs, rfl⟩
    · exact (List.prefix_cons_inj c).mpr (fgetsTake_prefix n cs)

theorem fgetsTake_length : ∀ (n : Nat) (f : List Char), (fgetsTake n f).length ≤ n
  | 0, f => by simp [fgetsTake]
  | _ + 1, [] => by simp [fgetsTake]
  | n + 1, c :: cs => by
    rw [fgetsTake]
    have := fgetsTake_length n cs
    split_ifs <;> simp <;> omega

theorem fgetsTake_ne_nil (n : Nat) (f : List Char) (hf : f ≠ []) : fgetsTake (n + 1) f ≠ [] := by
  cases f with
  | nil => exact absurd rfl hf
  | cons c cs => rw [fgetsTake]; split_ifs <;> simp

/-- A line end is only taken as the last character. -/
theorem fgetsTake_line : ∀ (n : Nat) (f : List Char), '\n' ∉ (fgetsTake n f).dropLast
  | 0, f => by simp [fgetsTake]
  | _ + 1, [] => by simp [fgetsTake]
  | n + 1, c :: cs => by
    rw [fgetsTake]
    split_ifs with h
    · simp
    · cases ht : fgetsTake n cs with
      | nil => simp
      | cons d ds =>
        have := fgetsTake_line n cs
        rw [ht] at this
        rw [List.dropLast_cons_of_ne_nil (by simp), List.mem_cons, not_or]
        exact ⟨fun e => h e.symm, this⟩

theorem takeWhile_terminated (t : List Char) (h : '\x00' ∉ t) :
    (t ++ ['\x00']).takeWhile (· ≠ '\x00') = t := by
  induction t with
  | nil => rfl
  | cons c t ih =>
    rw [List.mem_cons, not_or] at h
    rw [List.cons_append, List.takeWhile_cons, ih h.2]
    simp [Ne.symm h.1]

/-- One read of a file without zero characters. -/
theorem read_eq (k : Nat) (f : List Char) (h : '\x00' ∉ f) :
    read (k + 1) f = (fgetsTake k f, f.drop (fgetsTake k f).length) := by
  have hp := fgetsTake_prefix k f
  have h0 : '\x00' ∉ fgetsTake k f := fun m => h (hp.subset m)
  rw [read, fgets, if_neg (by omega)]
  by_cases hf : f = []
  · subst hf
    cases k <;> simp [fgetsTake]
  · rw [if_neg hf]
    simp only [Nat.add_sub_cancel, strlen]
    rw [takeWhile_terminated _ h0]
    simp

theorem read_take (k : Nat) (f : List Char) (h : '\x00' ∉ f) :
    (read (k + 1) f).1 ++ (read (k + 1) f).2 = f := by
  rw [read_eq k f h]
  have ht := List.prefix_iff_eq_take.mp (fgetsTake_prefix k f)
  generalize fgetsTake k f = t at ht
  show t ++ f.drop t.length = f
  conv_lhs => lhs; rw [ht]
  exact List.take_append_drop _ _

/-- **C79.** Reading a file without zero characters piece by piece, with room for two characters at
least, gives all of it in order. -/
theorem line_reader_all (k : Nat) (hk : 2 ≤ k) : ∀ (fuel : Nat) (f : List Char), '\x00' ∉ f →
    f.length ≤ fuel → (readAll k fuel f).flatten = f
  | 0, f, _, hl => by
    have : f = [] := List.length_eq_zero_iff.mp (by omega)
    simp [readAll, this]
  | fuel + 1, f, h0, hl => by
    obtain ⟨k, rfl⟩ := Nat.exists_eq_add_of_le hk
    have hr := read_eq (1 + k) f h0
    have ht := read_take (1 + k) f h0
    rw [show 1 + k + 1 = 2 + k by omega] at hr ht
    rw [readAll]
    split_ifs with he
    · rw [hr] at he
      simp only at he
      by_contra hne
      exact fgetsTake_ne_nil k f (fun e => hne (by simp [e])) (by rw [Nat.add_comm k 1]; exact he)
    · have hsub : '\x00' ∉ (read (2 + k) f).2 := fun m => h0 (by
        rw [← ht]; exact List.mem_append_right _ m)
      have hlen : (read (2 + k) f).2.length ≤ fuel := by
        have := congrArg List.length ht
        rw [List.length_append] at this
        have := List.length_pos_iff.mpr he
        omega
      rw [List.flatten_cons, line_reader_all (2 + k) hk fuel _ hsub hlen, ht]

/-- **C79.** A read never goes beyond the end of a line, whatever is in the file. -/
theorem line_reader_piece (k : Nat) (f : List Char) : '\n' ∉ (read k f).1.dropLast := by
  rw [read, fgets]
  split_ifs with h1 h2
  · simp
  · simp
  · simp only [strlen]
    have key : ∀ t : List Char, '\n' ∉ t.dropLast →
        '\n' ∉ ((t ++ ['\x00']).takeWhile (· ≠ '\x00')).dropLast := by
      intro t
      induction t with
      | nil => simp
      | cons c t ih =>
        intro ht
        rw [List.cons_append, List.takeWhile_cons]
        split_ifs with hc
        · cases t with
          | nil => simp
          | cons d ds =>
            rw [List.dropLast_cons_of_ne_nil (by simp), List.mem_cons, not_or] at ht
            have := ih ht.2
            cases hw : (d :: ds ++ ['\x00']).takeWhile (· ≠ '\x00') with
            | nil => simp
            | cons e es =>
              rw [hw] at this
              rw [List.dropLast_cons_of_ne_nil (by simp), List.mem_cons, not_or]
              exact ⟨ht.1, this⟩
        · simp
    have hpre : ∀ a : List Char, a.take (a.takeWhile (· ≠ '\x00')).length =
        a.takeWhile (· ≠ '\x00') := fun a =>
      (List.prefix_iff_eq_take.mp (List.takeWhile_prefix _)).symm
    rw [hpre]
    exact key _ (fgetsTake_line (k - 1) f)

/-- **C79, the code is wrong.** With room for one character nothing is ever read. -/
theorem line_reader_one (f : List Char) : read 1 f = ([], f) := by
  rw [read, fgets, if_neg (by omega)]
  by_cases hf : f = []
  · simp [hf]
  · rw [if_neg hf]
    simp [fgetsTake, strlen]

/-- **C79, the code is wrong.** Before a zero character at the beginning of a line the reader takes
at least one character from the file and returns none, which means the end of the file. -/
theorem line_reader_zero_char (k : Nat) (rest : List Char) :
    (read (k + 2) ('\x00' :: rest)).1 = [] ∧
      (read (k + 2) ('\x00' :: rest)).2.length ≤ rest.length := by
  simp [read, fgets, fgetsTake, strlen]

/-- **C79, the code is wrong.** A read never fills the span, so reading a span through the library
always reports failure, however many characters the file has. -/
theorem line_reader_span (k : Nat) (f : List Char) : readSpan (k + 1) f = false := by
  have key : (read (k + 1) f).1.length < k + 1 := by
    rw [read, fgets, if_neg (by omega)]
    by_cases hf : f = []
    · simp [hf]
    · rw [if_neg hf]
      simp only [Nat.add_sub_cancel, strlen, List.length_take]
      have hl := fgetsTake_length k f
      have : ∀ t : List Char, ((t ++ ['\x00']).takeWhile (· ≠ '\x00')).length ≤ t.length := by
        intro t
        induction t with
        | nil => simp
        | cons c t ih =>
          rw [List.cons_append, List.takeWhile_cons]
          split_ifs <;> simp_all
      have := this (fgetsTake k f)
      omega
  rw [readSpan]
  simp only [beq_eq_false_iff_ne, ne_eq]
  omega

/-! ### Writer -/

/-- The length of the text up to and including its last line end, from the text alone. -/
def throughLastLine (t : List Char) : Nat := (t.reverse.dropWhile (· ≠ '\n')).length

theorem scanBack_eq (t : List Char) : ∀ n, n ≤ t.length →
    scanBack t n = throughLastLine (t.take n)
  | 0, _ => by simp [scanBack, throughLastLine]
  | n + 1, h => by
    have hn : n < t.length := by omega
    have ht : t.take (n + 1) = t.take n ++ [t[n]] := by
      rw [List.take_append_getElem hn]
    rw [scanBack, ht, throughLastLine, List.reverse_append, List.reverse_singleton,
      List.singleton_append, List.dropWhile_cons, scanBack_eq t n (by omega)]
    rw [List.getElem?_eq_getElem hn]
    by_cases hc : t[n] = '\n'
    · rw [if_neg (by simp [hc]), if_neg (by simp [hc])]
      simp
      omega
    · rw [if_pos (by simp [hc]), if_pos (by simp [hc])]
      rfl

theorem throughLastLine_le (t : List Char) : throughLastLine t ≤ t.length := by
  rw [throughLastLine]
  exact Nat.le_trans (List.dropWhile_suffix _).length_le (by simp)

/-- Several writes. -/
def writes (s : Sink) (l : List (List Char)) : Sink := l.foldl writeEffect s

theorem writeEffect_got (s : Sink) (t : List Char) : (writeEffect s t).got = s.got ++ t := by
  rw [writeEffect]
  split_ifs with h
  · simp [Sink.write, Sink.flush, List.take_append_drop]
  · simp only [ne_eq, not_not] at h
    simp [Sink.write, h]

/-- **C79.** If the end of the function is reached, the device has received everything in order. -/
theorem line_writer_all (s : Sink) (l : List (List Char)) :
    (writes s l).got = s.got ++ l.flatten := by
  induction l generalizing s with
  | nil => simp [writes]
  | cons t l ih =>
    have := ih (writeEffect s t)
    rw [writeEffect_got] at this
    simpa [writes] using this

/-- **C79.** After a write everything through its last line end was flushed, and nothing more. -/
theorem line_writer_flushed (s : Sink) (t : List Char) :
    (writeEffect s t).flushed =
      if '\n' ∈ t then s.got.length + throughLastLine t else s.flushed := by
  have hs := scanBack_eq t t.length (Nat.le_refl _)
  rw [List.take_length] at hs
  have hm : throughLastLine t ≠ 0 ↔ '\n' ∈ t := by
    rw [throughLastLine, ne_eq, List.length_eq_zero_iff, List.dropWhile_eq_nil_iff]
    simp
  rw [writeEffect]
  simp only [hs]
  by_cases h : '\n' ∈ t
  · rw [if_pos (hm.mpr h), if_pos h]
    have := throughLastLine_le t
    simp [Sink.write, Sink.flush]
    omega
  · rw [if_neg (fun e => h (hm.mp e)), if_neg h]
    rfl

/-- **C79.** After any writes to a new device the flushed part ends with a line end or is empty, and
the rest has no line end: every complete line was flushed. -/
theorem line_writer_lines (l : List (List Char)) :
    (writes ⟨[], 0⟩ l).flushed = throughLastLine l.flatten := by
  have key : ∀ (l : List (List Char)) (s : Sink), s.flushed = throughLastLine s.got →
      (writes s l).flushed = throughLastLine (s.got ++ l.flatten) := by
    intro l
    induction l with
    | nil => intro s h; simpa [writes] using h
    | cons t l ih =>
      intro s h
      have h2 : (writeEffect s t).flushed = throughLastLine (writeEffect s t).got := by
        rw [line_writer_flushed, writeEffect_got, throughLastLine, throughLastLine, List.reverse_append]
        by_cases hm : '\n' ∈ t
        · have hne : t.reverse.dropWhile (· ≠ '\n') ≠ [] := by
            rw [ne_eq, List.dropWhile_eq_nil_iff]
            simp [hm]
          rw [if_pos hm, List.dropWhile_append, if_neg (by simpa using hne)]
          simp [throughLastLine]
          omega
        · have he : t.reverse.dropWhile (· ≠ '\n') = [] := by
            rw [List.dropWhile_eq_nil_iff]
            intro c hc
            simp only [decide_eq_true_eq]
            rintro rfl
            exact hm (List.mem_reverse.mp hc)
          rw [if_neg hm, List.dropWhile_append, if_pos (by rw [he]; rfl), h]
          rfl
      have := ih (writeEffect s t) h2
      rw [writeEffect_got] at this
      simpa [writes] using this
  simpa [throughLastLine] using key l ⟨[], 0⟩ (by simp [throughLastLine])

/-! ### Examples -/

example : readAll 4 20 "ab\ncdefg\n\nh".toList =
    ["ab\n".toList, "cde".toList, "fg\n".toList, "\n".toList, "h".toList] := by decide +kernel

example : '\x00' ∉ "ab\ncdefg\n\nh".toList := by decide +kernel

example : readAll 8 20 ['a', '\n', '\x00', 'b', 'c'] = [['a', '\n']] := by decide +kernel

example : readSpan 3 "abcdef".toList = false := by decide +kernel

example : writes ⟨[], 0⟩ ["ab".toList, "c\nd\ne".toList, "f".toList] =
    ⟨"abc\nd\nef".toList, 6⟩ := by
  have : writes ⟨[], 0⟩ ["ab".toList, "c\nd\ne".toList, "f".toList] =
    ⟨"abc\nd\nef".toList, 6⟩ ↔ True := by
    simp [writes, writeEffect, scanBack, Sink.write, Sink.flush]
  exact this.mpr trivial

end Actl.LineBuf
