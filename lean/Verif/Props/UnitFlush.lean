import Verif.Model.UnitFlush
import Verif.Props.TextDevice
import Verif.Props.BinaryDevice

/-!
C146: writing with `unit_flush` through a buffer.
-/

namespace Actl.UnitFlush

open Actl.Text Actl.Buffered

theorem keep (w : Writer) (hw : w.ptr < w.buf.length) (ops : List WOp) :
    (ops.foldl Writer.step w).buf.length = w.buf.length ∧ (ops.foldl Writer.step w).ptr < w.buf.length := by
  induction ops generalizing w with
  | nil => exact ⟨rfl, hw⟩
  | cons op ops ih =>
    have h : (w.step op).buf.length = w.buf.length ∧ (w.step op).ptr < w.buf.length := by
      cases op with
      | put c =>
        obtain ⟨h1, h2, -⟩ := writer_put hw c
        exact ⟨h1, by rw [Writer.step, h2]; exact Nat.mod_lt _ (by omega)⟩
      | write s =>
        obtain ⟨h1, h2, -⟩ := writer_write hw s
        exact ⟨h1, h2⟩
      | flush => exact ⟨rfl, by simp only [Writer.step, Writer.flush, Writer.overflow]; omega⟩
    rw [List.foldl_cons]
    have := ih (w.step op) (by omega)
    rw [h.1] at this
    exact this

theorem writeUnit_eq (w : Writer) (u : List WOp) : writeUnit w u = (u.foldl Writer.step w).flush := by
  simp [writeUnit, Writer.step]

/-- Flushing an empty buffer changes nothing. -/
theorem flush_empty (w : Writer) (h : w.ptr = 0) : w.flush = w := by
  cases w
  simp only at h
  subst h
  simp [Writer.flush, Writer.overflow]

/-- **C146** Units written with `unit_flush` to a device with an empty buffer: after every unit the underlying device has received exactly the characters written so far, and the buffer is empty,
*if and only if* inside of no unit a call with a span ends on a boundary of the buffer while characters of earlier calls of that unit are waiting. -/
theorem units_iff (units : List (List WOp)) (w : Writer) (hw : w.ptr = 0) (hB : 0 < w.buf.length) :
    (∀ k, (writeUnits w (units.take k)).sink = w.sink ++ ((units.take k).map written).flatten ∧ (writeUnits w (units.take k)).ptr = 0) ↔
      ∀ u ∈ units, NoBoundary w.buf.length 0 u := by
  induction units generalizing w with
  | nil => simp [writeUnits, hw]
  | cons u us ih =>
    have hp : w.ptr < w.buf.length := by omega
    obtain ⟨k1, k2⟩ := keep w hp u
    have hlen : (writeUnit w u).buf.length = w.buf.length := by rw [writeUnit_eq]; exact k1
    have hptr : (writeUnit w u).ptr = 0 := by rw [writeUnit_eq]; rfl
    have hone : (writeUnit w u).sink = w.sink ++ written u ↔ NoBoundary w.buf.length 0 u := by
      have := writer_iff u w hp
      rw [hw] at this
      simp only [List.take_zero, List.append_nil] at this
      rw [writeUnit_eq]
      exact this
    have ih := ih (writeUnit w u) hptr (by omega)
    rw [hlen] at ih
    rw [List.forall_mem_cons, ← ih, ← hone]
    constructor
    · intro h
      have h1 : (writeUnit w u).sink = w.sink ++ written u := by
        have := (h 1).1
        simpa [writeUnits] using this
      refine ⟨h1, fun k => ?_⟩
      have := h (k + 1)
      rw [List.take_succ_cons] at this
      simp only [writeUnits, List.foldl_cons, List.map_cons, List.flatten_cons] at this ⊢
      rw [h1, List.append_assoc]
      exact this
    · rintro ⟨h1, h2⟩ k
      cases k with
      | zero => simp [writeUnits, hw]
      | succ k =>
        have := h2 k
        rw [List.take_succ_cons]
        simp only [writeUnits, List.foldl_cons, List.map_cons, List.flatten_cons] at this ⊢
        rw [h1, List.append_assoc] at this
        exact this

/-- **C146** In particular units of one call each (a number, a string, a character, a separator) always arrive at once, whatever the size of the buffer: the defect of C21 does not
occur. -/
theorem units_single (calls : List WOp) (w : Writer) (hw : w.ptr = 0) (hB : 0 < w.buf.length) (k : Nat) :
    (writeUnits w ((calls.take k).map fun c => [c])).sink = w.sink ++ written (calls.take k) ∧
      (writeUnits w ((calls.take k).map fun c => [c])).ptr = 0 := by
  have h := (units_iff ((calls.take k).map fun c => [c]) w hw hB).mpr (by
    intro u hu
    obtain ⟨c, _, rfl⟩ := List.mem_map.mp hu
    cases c <;> simp [NoBoundary]) (calls.take k).length
  rw [List.take_of_length_le (by simp)] at h
  refine ⟨?_, h.2⟩
  rw [h.1]
  congr 1
  induction calls.take k with
  | nil => rfl
  | cons c cs ih =>
    simp only [List.map_cons, List.flatten_cons, ih]
    cases c <;> simp [written]

/-- **C146** Units shorter than the buffer arrive at once, too, however many calls they are made of. -/
theorem units_short (units : List (List WOp)) (w : Writer) (hw : w.ptr = 0) (h : ∀ u ∈ units, (written u).length < w.buf.length)
    (hB : 0 < w.buf.length) :
    (writeUnits w units).sink = w.sink ++ (units.map written).flatten ∧ (writeUnits w units).ptr = 0 := by
  have key : ∀ (ops : List WOp) (p : Nat), p + (written ops).length < w.buf.length → NoBoundary w.buf.length p ops := by
    intro ops
    induction ops with
    | nil => intro p _; trivial
    | cons a l ih =>
      intro p hp
      cases a with
      | put c =>
        simp only [written, List.length_cons] at hp
        rw [NoBoundary, Nat.mod_eq_of_lt (by omega)]
        exact ih _ (by omega)
      | write s =>
        simp only [written, List.length_append] at hp
        rw [NoBoundary, Nat.mod_eq_of_lt (by omega)]
        exact ⟨Or.inl (by omega), ih _ (by omega)⟩
      | flush =>
        simp only [written] at hp
        rw [NoBoundary]
        exact ih 0 (by omega)
  have := (units_iff units w hw hB).mpr (fun u hu => key u 0 (by have := h u hu; omega)) units.length
  rwa [List.take_length] at this

/-- **C146** (negation) A unit of two calls that together end on a boundary of the buffer is wrong in spite of the flush: the underlying device receives the first part twice. -/
theorem unit_duplicates (buf pre s : List Byte) (hp : pre ≠ []) (hB : pre.length < buf.length)
    (hs : (pre.length + s.length) % buf.length = 0) (hs' : s ≠ []) :
    (writeUnit (Writer.fresh buf) [.write pre, .write s]).sink = pre ++ s ++ pre := by
  rw [writeUnit_eq]
  exact writer_duplicates buf pre s hp hB hs hs'

theorem flushed_takes : TextTree.Takes flushedPort (fun w => w.ptr = 0 ∧ 0 < w.buf.length) where
  keep := by
    intro w s h
    refine ⟨true, _, rfl, ?_⟩
    rw [writeUnit_eq]
    obtain ⟨k1, k2⟩ := keep w (by omega) [s]
    refine ⟨rfl, ?_⟩
    have : (([s].foldl Writer.step w).flush).buf.length = w.buf.length := k1
    omega
  empty := by
    intro w h
    have : w.write [] = w := by
      cases w
      obtain ⟨h1, h2⟩ := h
      simp only at h1 h2
      subst h1
      simp [Writer.write, h2]
    simp only [flushedPort, writeUnit_eq, List.foldl_cons, List.foldl_nil, Writer.step, this, flush_empty w h.1]

theorem flushed_calls (ss : List WOp) (w : Writer) :
    TextTree.sendCalls flushedPort ss w = some (true, writeUnits w (ss.map fun c => [c])) := by
  induction ss generalizing w with
  | nil => rfl
  | cons s ss ih => simp [TextTree.sendCalls, flushedPort, ih, writeUnits]

open Actl.TextTree in
/-- **C146** Every structured value written as text with `unit_flush` at the end of the format through a buffer of any size: the call reports success and the underlying device has received
exactly the text of the value when it returns, before any destructor. -/
theorem flushed_write {c : Cfg} (hb : 2 ≤ c.num.base ∧ c.num.base ≤ 36) {t : Ty} {x : Val t} (hv : Valid t x) {buf : List Byte} (hB : buf ≠ []) :
    ∃ w, writeDev flushedPort c t x ⟨Writer.fresh buf, false⟩ = some (true, ⟨w, true⟩) ∧ some w.sink = text c t x ∧ w.ptr = 0 := by
  have hlen : 0 < (Writer.fresh buf).buf.length := List.length_pos_iff.mpr hB
  obtain ⟨ok, w, b, g1, g2, g3⟩ := write_sent (c := c) hb flushed_takes t x hv (d := Writer.fresh buf) ⟨rfl, hlen⟩ false
  rw [flushed_calls] at g2
  simp only [Option.some.injEq, Prod.mk.injEq] at g2
  obtain ⟨rfl, rfl⟩ := g2
  rw [g3 rfl] at g1
  have htx : text c t x = some (written (spans c false (tokens t x))) := by
    rw [text, write_eq hb t x hv, spans_written]
    simp
  have h := units_single (spans c false (tokens t x)) (Writer.fresh buf) rfl hlen (spans c false (tokens t x)).length
  rw [List.take_length] at h
  refine ⟨_, g1, ?_, h.2⟩
  rw [h.1, htx]
  simp [Writer.fresh]

theorem flushed_send (ss : List (List Byte)) (w : Writer) :
    TextTree.send flushedSink ss w = some (true, writeUnits w ((ss.map WOp.write).map fun c => [c])) := by
  induction ss generalizing w with
  | nil => rfl
  | cons s ss ih => simp [TextTree.send, flushedSink, ih, writeUnits]

open Actl.Binary in
/-- **C146** Every value written as binary with `unit_flush` through a buffer of any size: the call reports success and the underlying device has received exactly the bytes of the value
when it returns. -/
theorem flushed_binary (t : Binary.Ty) (v : Binary.Val t) {buf : List Byte} (hB : buf ≠ []) :
    ∃ w, Binary.writeDev flushedSink t v (Writer.fresh buf) = some (true, w) ∧ w.sink = image t v ∧ w.ptr = 0 := by
  have hlen : 0 < (Writer.fresh buf).buf.length := List.length_pos_iff.mpr hB
  refine ⟨_, by rw [write_send, flushed_send], ?_⟩
  have h := units_single ((Binary.spans t v).map WOp.write) (Writer.fresh buf) rfl hlen ((Binary.spans t v).map WOp.write).length
  rw [List.take_length, TextTree.written_spans] at h
  simpa [Writer.fresh, image, Binary.spans] using h

open Actl.Binary in
/-- **C146** So a value written as binary with `unit_flush` is read back from what has arrived, through buffers of any two sizes (without the flush only under the condition of C109). -/
theorem flushed_roundtrip {t : Binary.Ty} {v old : Binary.Val t} (hv : WF t v) (ho : WF t old) (hs : NoSeq t old) {buf : List Byte}
    (hB : buf ≠ []) {B : Nat} (hB' : 0 < B) :
    ∃ w, Binary.writeDev flushedSink t v (Writer.fresh buf) = some (true, w) ∧
      ∃ d, Binary.readDev (bufferedSource B) t old (Buffered.Reader.fresh w.sink) = some (true, v, d) := by
  obtain ⟨w, h1, h2, -⟩ := flushed_binary t v hB
  obtain ⟨d, h3, -⟩ := buffered_value hB' hv ho hs []
  rw [List.append_nil, ← h2] at h3
  exact ⟨w, h1, d, h3⟩

/-! Concrete cases: a buffer of four characters, where without the flush "ab" would arrive twice. -/

example : (Writer.fresh (bytes "....")).received [.write (bytes "ab"), .write (bytes "cd")] = bytes "abcdab" ∧
    (writeUnits (Writer.fresh (bytes "....")) [[.write (bytes "ab")], [.write (bytes "cd")]]).sink = bytes "abcd" := by decide +kernel
example : (writeUnits (Writer.fresh (bytes "....")) [[.put (lit 'x'), .write (bytes "yz")], [.write (bytes "12345678")]]).sink =
    bytes "xyz12345678" := by decide +kernel

open Actl.TextTree in
/-- The pair `(12, 34)` through a buffer of three characters: the device receives `12 34`, and without `unit_flush` it is `12 1234`. -/
example : (writeDev flushedPort exCfg (.tuple (.cons (.int 32 true) (.cons (.int 32 true) .nil)))
      ((12 : Int), ((34 : Int), ())) ⟨Writer.fresh (bytes "..."), false⟩).map (fun p => p.2.dev.sink) = some (bytes "12 34") ∧
    (writeDev bufferedPort exCfg (.tuple (.cons (.int 32 true) (.cons (.int 32 true) .nil)))
      ((12 : Int), ((34 : Int), ())) ⟨Writer.fresh (bytes "..."), false⟩).map (fun p => p.2.dev.flush.sink) =
      some (bytes "12 1234") := by decide +kernel

open Actl.TextTree in
example : ∃ w, writeDev flushedPort exCfg exTy exVal ⟨Writer.fresh (bytes "."), false⟩ = some (true, ⟨w, true⟩) ∧
    some w.sink = text exCfg exTy exVal ∧ w.ptr = 0 := flushed_write (by decide) exVal_valid (by decide)

/-- The vector of eight bytes of C109 through a buffer of 16 characters, where the size would arrive twice without the flush. -/
example : (Binary.writeDev flushedSink (.vec (.arith 1)) ([1#8, 2#8, 3#8, 4#8, 5#8, 6#8, 7#8, 8#8] : List (BitVec 8))
    (Writer.fresh (List.replicate 16 0#8))).map (fun p => (p.1, p.2.sink)) = some (true,
      [8#8, 0#8, 0#8, 0#8, 0#8, 0#8, 0#8, 0#8, 1#8, 2#8, 3#8, 4#8, 5#8, 6#8, 7#8, 8#8]) := by decide +kernel

end Actl.UnitFlush
