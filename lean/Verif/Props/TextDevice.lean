import Verif.Lemmas.TextDevice
import Verif.Lemmas.TextDeviceWrite
import Verif.Props.TextTree

/-!
**C108** Structured values written as text to a device read back from a device.

`Model/TextDevice.lean` performs the calls on the devices one by one.  The theorems relate them to the text of a value
(`text`, described by `text_pieces` of C98) and to reading from a text in one piece (`read`, described exactly by
`read_text_iff` of C98).
-/

namespace Actl.TextTree

open Actl.Text Actl.Buffered

/-! ### Reading -/

/-- Reading from a buffered reader, whatever its capacity, that has delivered `k` characters by `read` before (none are
enough): the result and the object are those of reading from the remaining characters in one piece, all loops
end, and the reader continues exactly behind what was consumed, unless the reading failed because a character was
missing: then the end of the input is reported. -/
theorem buffered_read {B : Nat} (hB : 0 < B) (data : List Byte) (k : Nat) (c : Cfg) (r : Reader) (t : Ty) (y : Val t)
    (sep : Bool) {N : Nat} (hN : data.length < N) :
    ∃ rd, (Buffered.Reader.fresh data).read B k = some (data.take k, rd) ∧
      match read c r t y ⟨data.drop k, sep⟩ with
      | none => readDev (bufferedDev B) N c r t y ⟨rd, sep⟩ = none
      | some (ok, z, s) => ∃ rd', readDev (bufferedDev B) N c r t y ⟨rd, sep⟩ = some (ok, z, ⟨rd', s.separate⟩) ∧
          ((∃ pos, s.d = data.drop pos ∧ pos ≤ data.length ∧ ∀ ops, Follows data pos ops (rd'.run B ops)) ∨
            ok = false ∧ s.d = [] ∧ rd'.eof = true) := by
  have h0 : Rel data 0 (Buffered.Reader.fresh data) :=
    ⟨[], by simp [Buffered.Reader.fresh], rfl, by simp [Buffered.Reader.fresh]⟩
  obtain ⟨rd, h1, h2, h3⟩ := read_rel hB h0 (Nat.le_refl _) k
  refine ⟨rd, by simpa using h1, ?_⟩
  have hcorr : Corr (Filled data) N ⟨data.drop k, sep⟩ ⟨rd, sep⟩ := by
    refine ⟨⟨_, h2, h3, by omega, ?_⟩, rfl, by simp; omega⟩
    simp only
    by_cases hk : k ≤ data.length
    · congr 1; omega
    · rw [List.drop_eq_nil_of_le (by omega), List.drop_eq_nil_of_le (by omega)]
  have := read_agree (buffered_faithful hB data) c r t y hcorr
  generalize read c r t y ⟨data.drop k, sep⟩ = a at this
  generalize readDev (bufferedDev B) N c r t y ⟨rd, sep⟩ = b at this
  match a, b, this with
  | none, none, _ => rfl
  | some (ok, z, s), some (ok', z', e), ⟨k1, k2, .inl ⟨⟨pos, g1, g2, g3, g4⟩, k4, _⟩⟩ =>
    subst k1 k2
    exact ⟨e.dev, by rw [k4], .inl ⟨pos, g4, g3, fun ops => primed_follows hB ops g1 g2⟩⟩
  | some (ok, z, s), some (ok', z', e), ⟨k1, k2, .inr ⟨g1, g2, g3, k4⟩⟩ =>
    subst k1 k2
    exact ⟨e.dev, by rw [k4], .inr ⟨g1, g2, g3⟩⟩

/-- The same for memory devices; the pointer is left behind what was consumed. -/
theorem memory_read (data : List Byte) {k : Nat} (hk : k ≤ data.length) (c : Cfg) (r : Reader) (t : Ty) (y : Val t)
    (sep : Bool) {N : Nat} (hN : data.length < N) :
    match read c r t y ⟨data.drop k, sep⟩ with
    | none => readDev memoryDev N c r t y ⟨⟨data, k⟩, sep⟩ = none
    | some (ok, z, s) => ∃ m, readDev memoryDev N c r t y ⟨⟨data, k⟩, sep⟩ = some (ok, z, ⟨m, s.separate⟩) ∧
        ((∃ pos : Nat, m.pos = pos ∧ pos ≤ m.data.length ∧ s.d = m.data.drop pos) ∨ ok = false ∧ s.d = [] ∧ m.eof = true) := by
  have hcorr : Corr MemLeft N ⟨data.drop k, sep⟩ ⟨⟨data, k⟩, sep⟩ := ⟨⟨k, rfl, hk, rfl⟩, rfl, by simp; omega⟩
  have := read_agree memory_faithful c r t y hcorr
  generalize read c r t y ⟨data.drop k, sep⟩ = a at this
  generalize readDev memoryDev N c r t y ⟨⟨data, k⟩, sep⟩ = b at this
  match a, b, this with
  | none, none, _ => rfl
  | some (ok, z, s), some (ok', z', e), ⟨k1, k2, .inl ⟨⟨pos, g1, g2, g3⟩, k4, _⟩⟩ =>
    subst k1 k2
    exact ⟨e.dev, by rw [k4], .inl ⟨pos, g1, g2, g3⟩⟩
  | some (ok, z, s), some (ok', z', e), ⟨k1, k2, .inr ⟨g1, g2, g3, k4⟩⟩ =>
    subst k1 k2
    exact ⟨e.dev, by rw [k4], .inr ⟨g1, g2, g3⟩⟩

/-- The same for string devices. -/
theorem string_read (str : List Byte) (hl : str.length < 2 ^ 63) {k : Nat} (hk : k ≤ str.length) (c : Cfg) (r : Reader)
    (t : Ty) (y : Val t) (sep : Bool) {N : Nat} (hN : str.length < N) :
    match read c r t y ⟨str.drop k, sep⟩ with
    | none => readDev stringDev N c r t y ⟨⟨str, k⟩, sep⟩ = none
    | some (ok, z, s) => ∃ d, readDev stringDev N c r t y ⟨⟨str, k⟩, sep⟩ = some (ok, z, ⟨d, s.separate⟩) ∧
        (d.pos ≤ d.s.length ∧ s.d = d.s.drop d.pos ∨ ok = false ∧ s.d = [] ∧ d.eof = true) := by
  have hcorr : Corr StrLeft N ⟨str.drop k, sep⟩ ⟨⟨str, k⟩, sep⟩ := ⟨⟨hk, hl, rfl⟩, rfl, by simp; omega⟩
  have := read_agree string_faithful c r t y hcorr
  generalize read c r t y ⟨str.drop k, sep⟩ = a at this
  generalize readDev stringDev N c r t y ⟨⟨str, k⟩, sep⟩ = b at this
  match a, b, this with
  | none, none, _ => rfl
  | some (ok, z, s), some (ok', z', e), ⟨k1, k2, .inl ⟨⟨g1, g2, g3⟩, k4, _⟩⟩ =>
    subst k1 k2
    exact ⟨e.dev, by rw [k4], .inl ⟨g1, g3⟩⟩
  | some (ok, z, s), some (ok', z', e), ⟨k1, k2, .inr ⟨g1, g2, g3, k4⟩⟩ =>
    subst k1 k2
    exact ⟨e.dev, by rw [k4], .inr ⟨g1, g2, g3⟩⟩

/-- Two characters from a string with one: the second becomes the null character and the position is past the end. -/
example : (readDev stringDev 9 exCfg .skipws (.tuple (.cons .char (.cons .char .nil))) (lit 'x', (lit 'y', ()))
      ⟨⟨bytes " a", 0⟩, false⟩).map (fun p => (p.1, (show Byte from p.2.1.1), (show Byte from p.2.1.2.1), p.2.2.dev.pos)) =
    some (false, lit 'a', 0#8, 3) := by decide +kernel

/-- The value of the examples of C98 through a buffer of two characters. -/
example : ((readDev (bufferedDev 2) 99 exCfg .skipws exTy exOld ⟨(Buffered.Reader.fresh (bytes "2 12 false -3 true 1 7 ab")).underflow 2,
    false⟩).map fun p => (p.1, p.2.2.dev)) = some (true, ⟨[], 0, []⟩) := by decide +kernel

/-! ### Writing -/

/-- What is written to a buffered device of any capacity: the call reports success; after the destructor the underlying device
has received the text of the value **exactly if** no separator and no piece of the text, other than a character, ends on a
boundary of the buffer while the buffer holds earlier characters. -/
theorem buffered_write {c : Cfg} (hb : 2 ≤ c.num.base ∧ c.num.base ≤ 36) {t : Ty} {x : Val t} (hv : Valid t x)
    {buf : List Byte} (hB : buf ≠ []) :
    ∃ pieces w, List.Forall₂ (Token.Shows c) (tokens t x) pieces ∧ text c t x = some (pieces.intersperse c.space).flatten ∧
      writeDev bufferedPort c t x ⟨Writer.fresh buf, false⟩ = some (true, ⟨w, true⟩) ∧
      (some w.flush.sink = text c t x ↔
        NoBoundary buf.length 0 ((List.zipWith Token.call (tokens t x) pieces).intersperse (.write c.space))) := by
  have hI : (Writer.fresh buf).ptr < (Writer.fresh buf).buf.length := by
    simpa [Writer.fresh] using List.length_pos_iff.mpr hB
  obtain ⟨ok, w, b, g1, g2, g3⟩ := write_sent (c := c) hb buffered_takes t x hv hI false
  rw [buffered_calls] at g2
  simp only [Option.some.injEq, Prod.mk.injEq] at g2
  obtain ⟨rfl, rfl⟩ := g2
  rw [g3 rfl] at g1
  have htx : text c t x = some (written (spans c false (tokens t x))) := by
    rw [text, write_eq hb t x hv, spans_written]
    simp
  refine ⟨(tokens t x).map (Token.text c), _, ?_, ?_, g1, ?_⟩
  · have h := text_shows hb t x hv
    rw [List.forall₂_map_right_iff, List.forall₂_same]
    exact h
  · rw [htx, spans_written, body_intersperse]
  · have := writer_iff (spans c false (tokens t x)) _ hI
    simp only [Writer.fresh, List.take_zero, List.nil_append] at this
    rw [htx, Option.some.injEq, ← spans_intersperse, ← this]
    rfl

/-- In particular the text arrives if it is shorter than the buffer. -/
theorem buffered_write_short {c : Cfg} (hb : 2 ≤ c.num.base ∧ c.num.base ≤ 36) {t : Ty} {x : Val t} (hv : Valid t x)
    {s : List Byte} (hs : text c t x = some s) {buf : List Byte} (hl : s.length < buf.length) :
    ∃ w, writeDev bufferedPort c t x ⟨Writer.fresh buf, false⟩ = some (true, ⟨w, true⟩) ∧ w.flush.sink = s := by
  obtain ⟨pieces, w, h1, h2, h3, h4⟩ := buffered_write hb hv (buf := buf) (by rintro rfl; simp at hl)
  refine ⟨w, h3, ?_⟩
  rw [hs] at h2 h4
  simp only [Option.some.injEq] at h2 h4
  refine h4.mpr ?_
  have key : ∀ (ops : List WOp) (p : Nat), .flush ∉ ops → p + (written ops).length < buf.length → NoBoundary buf.length p ops := by
    intro ops
    induction ops with
    | nil => intro p _ _; trivial
    | cons a l ih =>
      intro p hf hp
      simp only [List.mem_cons, not_or] at hf
      cases a with
      | flush => exact absurd rfl hf.1
      | put x =>
        simp only [written, List.length_cons] at hp
        rw [NoBoundary, Nat.mod_eq_of_lt (by omega)]
        exact ih _ hf.2 (by omega)
      | write s =>
        simp only [written, List.length_append] at hp
        refine ⟨.inl (by omega), ?_⟩
        rw [Nat.mod_eq_of_lt (by omega)]
        exact ih _ hf.2 (by omega)
  obtain ⟨h5, h6⟩ := calls_written (c := c) h1
  exact key _ 0 h5 (by rw [h6, ← h2]; omega)

/-- The pair `(12, 34)` is written as `12 34`.  With a buffer of three characters the device receives `12 1234`, because
the separator ends on the boundary; with a buffer of four characters the text is right. -/
example : (writeDev bufferedPort exCfg (.tuple (.cons (.int 32 true) (.cons (.int 32 true) .nil)))
      ((12 : Int), ((34 : Int), ())) ⟨Writer.fresh (bytes "..."), false⟩).map (fun p => p.2.dev.flush.sink) =
      some (bytes "12 1234") ∧
    (writeDev bufferedPort exCfg (.tuple (.cons (.int 32 true) (.cons (.int 32 true) .nil)))
      ((12 : Int), ((34 : Int), ())) ⟨Writer.fresh (bytes "...."), false⟩).map (fun p => p.2.dev.flush.sink) =
      some (bytes "12 34") := by decide +kernel

/-- Characters are written one by one, and the boundary does no harm: `(1, 'a')` through a buffer of three characters; but a
string of one character at the same place does: `1 a1 ` is received. -/
example : (writeDev bufferedPort exCfg (.tuple (.cons (.int 32 true) (.cons .char .nil)))
      ((1 : Int), (lit 'a', ())) ⟨Writer.fresh (bytes "..."), false⟩).map (fun p => p.2.dev.flush.sink) =
      some (bytes "1 a") ∧
    (writeDev bufferedPort exCfg (.tuple (.cons (.int 32 true) (.cons .str .nil)))
      ((1 : Int), (bytes "a", ())) ⟨Writer.fresh (bytes "..."), false⟩).map (fun p => p.2.dev.flush.sink) =
      some (bytes "1 a1 ") := by decide +kernel

/-- Writing to a memory device from position `k`: as much of the text as there is room for is stored, nothing else
changes, and success is reported exactly if all of it was stored. -/
theorem memory_write {c : Cfg} (hb : 2 ≤ c.num.base ∧ c.num.base ≤ 36) {t : Ty} {x : Val t} (hv : Valid t x)
    {s : List Byte} (hs : text c t x = some s) {data : List Byte} (hl : data.length < 2 ^ 63) {k : Nat} (hk : k ≤ data.length) :
    ∃ sep, writeDev memoryPort c t x ⟨⟨data, k⟩, false⟩ = some (decide (s.length ≤ data.length - k),
      ⟨⟨data.take k ++ s.take (data.length - k) ++ data.drop (k + s.length),
        ((k + min s.length (data.length - k) : Nat) : Int)⟩, sep⟩) := by
  obtain ⟨ok, m, b, g1, g2, g3⟩ := write_sent (c := c) (d := ⟨data, k⟩) hb memory_takes t x hv ⟨k, rfl, hk, hl⟩ false
  rw [memory_calls _ ⟨k, rfl, hk, hl⟩, memory_send _ hk hl, ← written_flatten] at g2
  have htx : s = written (spans c false (tokens t x)) := by
    rw [text, write_eq hb t x hv] at hs
    rw [spans_written]
    simpa using hs.symm
  rw [← htx] at g2
  simp only [Option.some.injEq, Prod.mk.injEq] at g2
  exact ⟨b, by rw [g1, ← g2.1, ← g2.2]⟩

example : (writeDev memoryPort exCfg exTy exVal ⟨⟨bytes "................", 2⟩, false⟩).map (fun p => (p.1, p.2.dev.data)) =
    some (false, bytes "..2 12 false -3 ") := by decide +kernel

/-- Writing to a string device appends the text. -/
theorem string_write {c : Cfg} (hb : 2 ≤ c.num.base ∧ c.num.base ≤ 36) {t : Ty} {x : Val t} (hv : Valid t x)
    {s : List Byte} (hs : text c t x = some s) (d : Device.Str) :
    writeDev stringPort c t x ⟨d, false⟩ = some (true, ⟨{ d with s := d.s ++ s }, true⟩) := by
  obtain ⟨ok, m, b, g1, g2, g3⟩ := write_sent (c := c) (d := d) hb string_takes t x hv trivial false
  rw [string_calls] at g2
  have htx : s = written (spans c false (tokens t x)) := by
    rw [text, write_eq hb t x hv] at hs
    rw [spans_written]
    simpa using hs.symm
  rw [← htx] at g2
  simp only [Option.some.injEq, Prod.mk.injEq] at g2
  obtain ⟨rfl, rfl⟩ := g2
  rw [g1, g3 rfl]

/-! ### Round trips -/

/-- Everything C98 says about reading back holds through buffered devices: if the text of a value arrived, then a filled buffered
reader of any capacity gives the value back exactly under the conditions of `read_text_iff`. -/
theorem buffered_roundtrip {c : Cfg} {r : Reader} (hs : c.Sound r) {t : Ty} {x y : Val t} (hv : Valid t x)
    (hy : Ready t y) {buf : List Byte} (hB : buf ≠ []) {w : Writer} {sep : Bool}
    (hw : writeDev bufferedPort c t x ⟨Writer.fresh buf, false⟩ = some (true, ⟨w, sep⟩))
    (hr : some w.flush.sink = text c t x) {B N : Nat} (hB' : 0 < B) (hN : w.flush.sink.length < N) :
    ∃ rd, (Buffered.Reader.fresh w.flush.sink).read B 0 = some ([], rd) ∧
      ((∃ e, readDev (bufferedDev B) N c r t y ⟨rd, false⟩ = some (true, x, e)) ↔
        ∀ a tok b, tokens t x = a ++ tok :: b → tok.Kept c r (b = []) (∀ t ∈ b, t.Blank)) := by
  obtain ⟨rd, h1, h2⟩ := buffered_read hB' w.flush.sink 0 c r t y false hN
  refine ⟨rd, by simpa using h1, ?_⟩
  rw [← read_text_iff hs hv hy hr.symm]
  rw [List.drop_zero] at h2
  constructor
  · rintro ⟨e, he⟩
    match hrd : read c r t y ⟨w.flush.sink, false⟩ with
    | none => rw [hrd] at h2; simp only at h2; rw [h2] at he; cases he
    | some (ok, z, s) =>
      rw [hrd] at h2
      obtain ⟨rd', h3, -⟩ := h2
      rw [he] at h3
      simp only [Option.some.injEq, Prod.mk.injEq] at h3
      exact ⟨s, by rw [h3.1, h3.2.1]⟩
  · rintro ⟨s, hrd⟩
    rw [hrd] at h2
    obtain ⟨rd', h3, -⟩ := h2
    exact ⟨_, h3⟩

/-- A string device for reading and writing: what was written last is read back from behind everything read before. -/
theorem string_roundtrip {c : Cfg} {r : Reader} (hs : c.Sound r) {t : Ty} {x y : Val t} (hv : Valid t x)
    (hy : Ready t y) {str s : List Byte} (hw : text c t x = some s) (hl : (str ++ s).length < 2 ^ 63) {N : Nat}
    (hN : (str ++ s).length < N) :
    ∃ d, writeDev stringPort c t x ⟨⟨str, str.length⟩, false⟩ = some (true, ⟨d, true⟩) ∧
      ((∃ e, readDev stringDev N c r t y ⟨d, false⟩ = some (true, x, e)) ↔
        ∀ a tok b, tokens t x = a ++ tok :: b → tok.Kept c r (b = []) (∀ t ∈ b, t.Blank)) := by
  refine ⟨_, string_write hs.base hv hw _, ?_⟩
  have h2 := string_read (str ++ s) hl (k := str.length) (by simp) c r t y false hN
  rw [List.drop_left] at h2
  rw [← read_text_iff hs hv hy hw]
  constructor
  · rintro ⟨e, he⟩
    match hrd : read c r t y ⟨s, false⟩ with
    | none => rw [hrd] at h2; simp only at h2; rw [h2] at he; cases he
    | some (ok, z, s') =>
      rw [hrd] at h2
      obtain ⟨d, h3, -⟩ := h2
      rw [he] at h3
      simp only [Option.some.injEq, Prod.mk.injEq] at h3
      exact ⟨s', by rw [h3.1, h3.2.1]⟩
  · rintro ⟨s', hrd⟩
    rw [hrd] at h2
    obtain ⟨d, h3, -⟩ := h2
    exact ⟨_, h3⟩

/-- A span of memory that is written completely and then read from its beginning. -/
theorem memory_roundtrip {c : Cfg} {r : Reader} (hs : c.Sound r) {t : Ty} {x y : Val t} (hv : Valid t x)
    (hy : Ready t y) {s data : List Byte} (hw : text c t x = some s) (hd : data.length = s.length)
    (hl : s.length < 2 ^ 63) {N : Nat} (hN : s.length < N) :
    ∃ m sep, writeDev memoryPort c t x ⟨⟨data, 0⟩, false⟩ = some (true, ⟨m, sep⟩) ∧
      ((∃ e, readDev memoryDev N c r t y ⟨⟨m.data, 0⟩, false⟩ = some (true, x, e)) ↔
        ∀ a tok b, tokens t x = a ++ tok :: b → tok.Kept c r (b = []) (∀ t ∈ b, t.Blank)) := by
  obtain ⟨sep, h1⟩ := memory_write hs.base hv hw (data := data) (by omega) (k := 0) (by omega)
  simp only [hd, Nat.sub_zero, Nat.le_refl, decide_true, List.take_zero, List.nil_append, List.take_length, Nat.zero_add] at h1
  rw [List.drop_eq_nil_of_le (by omega), List.append_nil] at h1
  refine ⟨_, sep, h1, ?_⟩
  have h2 := memory_read s (k := 0) (by omega) c r t y false hN
  rw [List.drop_zero] at h2
  rw [← read_text_iff hs hv hy hw]
  constructor
  · rintro ⟨e, he⟩
    match hrd : read c r t y ⟨s, false⟩ with
    | none => rw [hrd] at h2; simp only at h2; rw [show ((0 : Nat) : Int) = 0 from rfl] at h2; rw [h2] at he; cases he
    | some (ok, z, s') =>
      rw [hrd] at h2
      obtain ⟨d, h3, -⟩ := h2
      rw [show ((0 : Nat) : Int) = 0 from rfl, he] at h3
      simp only [Option.some.injEq, Prod.mk.injEq] at h3
      exact ⟨s', by rw [h3.1, h3.2.1]⟩
  · rintro ⟨s', hrd⟩
    rw [hrd] at h2
    obtain ⟨d, h3, -⟩ := h2
    exact ⟨_, h3⟩

/-- The value of C98 through buffers of 64 and of 3 characters, and through a string. -/
example (r : Reader) : ∃ w sep rd e,
    writeDev bufferedPort exCfg exTy exVal ⟨Writer.fresh (List.replicate 64 0#8), false⟩ = some (true, ⟨w, sep⟩) ∧
    (Buffered.Reader.fresh w.flush.sink).read 3 0 = some ([], rd) ∧
    readDev (bufferedDev 3) 100 exCfg r exTy exOld ⟨rd, false⟩ = some (true, exVal, e) := by
  have ht : text exCfg exTy exVal = some (bytes "2 12 false -3 true 1 7 ab") := by decide +kernel
  obtain ⟨w, h1, h2⟩ := buffered_write_short (exCfg_sound r).base exVal_valid ht (buf := List.replicate 64 0#8)
    (by decide +kernel)
  obtain ⟨rd, h3, h4⟩ := buffered_roundtrip (exCfg_sound r) exVal_valid exOld_ready (by decide +kernel) h1 (by rw [h2, ht])
    (B := 3) (N := 100) (by omega) (by rw [h2]; decide +kernel)
  obtain ⟨e, h5⟩ := h4.mpr fun _ _ _ h => kept_of_all (exVal_kept r) h
  exact ⟨w, true, rd, e, h1, h3, h5⟩

/-! ### New buffered readers -/

theorem first_token {a a' b b' : List Token} {tok : Token} (h : a ++ tok :: b = a' ++ .word [] :: b')
    (ha : ∀ u ∈ a, u = .nothing) (ha' : ∀ u ∈ a', u = .nothing) (hn : tok ≠ .nothing) : tok = .word [] := by
  induction a generalizing a' with
  | nil =>
    cases a' with
    | nil => exact (List.cons.inj h).1
    | cons u us => exact absurd ((List.cons.inj h).1.trans (ha' u (by simp))) hn
  | cons v vs ih =>
    cases a' with
    | nil =>
      have h1 := (List.cons.inj h).1
      rw [ha v (by simp)] at h1
      cases h1
    | cons u us =>
      exact ih (List.cons.inj h).2 (fun w hw => ha w (by simp [hw])) (fun w hw => ha' w (by simp [hw]))

/-- (negation) From a new buffered reader, whose buffer is empty until the first `read`, no value is read back, whatever the
device contains, except for values whose text begins with an empty string or is empty: if `tok` is the first piece
of `x` that is not the empty tuple or array, then reading never succeeds with `x` unless `tok` is an empty string. -/
theorem fresh_read_fails {B N : Nat} (hN : 0 < N) (data : List Byte) (c : Cfg) (r : Reader) {t : Ty} (x y : Val t)
    {a b : List Token} {tok : Token} (hx : tokens t x = a ++ tok :: b) (ha : ∀ u ∈ a, u = .nothing)
    (hn : tok ≠ .nothing) (hw : tok ≠ .word []) (sep : Bool) (e : DSt Buffered.Reader) :
    readDev (bufferedDev B) N c r t y ⟨Buffered.Reader.fresh data, sep⟩ ≠ some (true, x, e) := by
  intro h
  rcases fresh_readDev c r hN t y rfl h with ⟨h1, -⟩ | ⟨a', b', h1, h2⟩
  · exact hn (h1 tok (by rw [hx]; simp))
  · exact hw (first_token (by rw [← hx, h1]) ha h2 hn)

/-- A number from a new reader: the call fails and the file is not even touched. -/
example : readDev (bufferedDev 4) 9 exCfg .skipws (.int 32 true) (0 : Int) ⟨Buffered.Reader.fresh (bytes "12"), false⟩ =
    some (false, (0 : Int), ⟨Buffered.Reader.fresh (bytes "12"), false⟩) := rfl

end Actl.TextTree
