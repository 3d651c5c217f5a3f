import Verif.Lemmas.BinaryDevice

/-!
**C109** Binary values written to a device read back from a device.

`Model/BinaryDevice.lean` performs the calls on the devices one by one.  The bytes of a value (`image`) are described in
`Spec/BinaryDevice.lean`.
-/

namespace Actl.Binary

open Actl.Text
open Actl.TextTree (Sink send bufferedSink memorySink stringSink)
open Actl.Buffered (Writer NoBoundary)

variable {δ : Type}

theorem value_same {src : Source δ} {R : δ → List Byte → Prop} (h : Delivers src R) {t : Ty} {v old : Val t} (hv : WF t v)
    (ho : WF t old) (hs : NoSeq t old) {rest : List Byte} {d : δ} (hd : R d (image t v ++ rest)) :
    ∃ d', readDev src t old d = some (true, v, d') ∧ R d' rest ∧ ∀ k, ∃ d'', src k d' = some (rest.take k, d'') := by
  obtain ⟨d', h1, h2⟩ := read_same h t old hd
  rw [← write_image, read_write_partial t v old rest hv ho hs] at h1 h2
  refine ⟨d', h1, h2, fun k => ?_⟩
  obtain ⟨d'', h3, -⟩ := h d' rest k h2
  exact ⟨d'', h3⟩

theorem truncated_same {src : Source δ} {R : δ → List Byte → Prop} (h : Delivers src R) {t : Ty} {v old : Val t}
    (hv : WF t v) (ho : WF t old) (hs : NoSeq t old) {p : List Byte} (hp : p <+: image t v) (hne : p ≠ image t v) {d : δ}
    (hd : R d p) : ∃ y d', readDev src t old d = some (false, y, d') := by
  obtain ⟨d', h1, -⟩ := read_same h t old hd
  rw [← write_image] at hp hne
  rw [read_truncated t v old hv ho hs p hp hne] at h1
  exact ⟨_, d', h1⟩

/-! ### Reading -/

/-- **C109** From a new buffered reader of any capacity whose underlying device delivers the bytes of a value: the value is
read, and the reader goes on with what follows. -/
theorem buffered_value {B : Nat} (hB : 0 < B) {t : Ty} {v old : Val t} (hv : WF t v) (ho : WF t old) (hs : NoSeq t old)
    (rest : List Byte) :
    ∃ d', readDev (bufferedSource B) t old (Buffered.Reader.fresh (image t v ++ rest)) = some (true, v, d') ∧
      ∀ k, ∃ d'', d'.read B k = some (rest.take k, d'') := by
  obtain ⟨d', h1, -, h2⟩ := value_same (buffered_delivers hB (image t v ++ rest)) hv ho hs (fresh_at _)
  exact ⟨d', h1, h2⟩

/-- **C109** The same for a memory device, the value beginning at any position. -/
theorem memory_value {t : Ty} {v old : Val t} (hv : WF t v) (ho : WF t old) (hs : NoSeq t old) (pre rest : List Byte)
    (hl : (pre ++ image t v ++ rest).length < 2 ^ 63) :
    ∃ d', readDev memorySource t old ⟨pre ++ image t v ++ rest, pre.length⟩ = some (true, v, d') ∧
      ∀ k, ∃ d'', d'.read k = some (rest.take k, d'') := by
  obtain ⟨d', h1, -, h2⟩ := value_same memory_delivers hv ho hs (rest := rest)
    (d := ⟨pre ++ image t v ++ rest, pre.length⟩) ⟨pre.length, rfl, by simp, hl, by simp⟩
  exact ⟨d', h1, h2⟩

/-- **C109** The same for a string device. -/
theorem string_value {t : Ty} {v old : Val t} (hv : WF t v) (ho : WF t old) (hs : NoSeq t old) (pre rest : List Byte)
    (hl : (pre ++ image t v ++ rest).length < 2 ^ 63) :
    ∃ d', readDev stringSource t old ⟨pre ++ image t v ++ rest, pre.length⟩ = some (true, v, d') ∧
      ∀ k, ∃ d'', d'.read k = some (rest.take k, d'') := by
  obtain ⟨d', h1, -, h2⟩ := value_same string_delivers hv ho hs (rest := rest)
    (d := ⟨pre ++ image t v ++ rest, pre.length⟩) ⟨by simp, hl, by simp⟩
  exact ⟨d', h1, h2⟩

theorem open_pos {mode : Nat} (hm : 2 ≤ mode ∧ mode < 16) {s : List Byte} {f : FileDevice.Stream}
    (hf : FileDevice.openFile mode (some s) = some f) : f.pos = 0 := by
  obtain ⟨h1, h2⟩ := hm
  interval_cases mode <;>
    (simp [FileDevice.openFile, FileDevice.modeStr, FileDevice.fopen] at hf; rw [← hf])

/-- **C109** The same for a file opened for input. -/
theorem file_value {mode : Nat} (hm : 2 ≤ mode ∧ mode < 16) (hin : FileDevice.isIn mode = true) {t : Ty} {v old : Val t}
    (hv : WF t v) (ho : WF t old) (hs : NoSeq t old) (rest : List Byte) {f : FileDevice.Stream}
    (hf : FileDevice.openFile mode (some (image t v ++ rest)) = some f) (hd : f.data = image t v ++ rest) :
    ∃ d', readDev fileSource t old f = some (true, v, d') ∧ ∀ k, ∃ d'', FileDevice.read k d' = some (rest.take k, d'') := by
  have hr := FileDevice.open_readable hm hf hin
  obtain ⟨d', h1, -, h2⟩ := value_same file_delivers hv ho hs (rest := rest) (d := f)
    ⟨hr, by rw [open_pos hm hf, hd, List.drop_zero]⟩
  exact ⟨d', h1, h2⟩

/-- **C109** If the bytes end within the value, reading reports failure, on every device. -/
theorem truncated_fails {t : Ty} {v old : Val t} (hv : WF t v) (ho : WF t old) (hs : NoSeq t old) {p : List Byte}
    (hp : p <+: image t v) (hne : p ≠ image t v) (hl : p.length < 2 ^ 63) {B : Nat} (hB : 0 < B) :
    (∃ y d', readDev (bufferedSource B) t old (Buffered.Reader.fresh p) = some (false, y, d')) ∧
    (∃ y d', readDev memorySource t old ⟨p, 0⟩ = some (false, y, d')) ∧
    (∃ y d', readDev stringSource t old ⟨p, 0⟩ = some (false, y, d')) ∧
    ∃ y d', readDev fileSource t old ⟨p, 0, false, true, false, false, .nothing⟩ = some (false, y, d') :=
  ⟨truncated_same (buffered_delivers hB p) hv ho hs hp hne (fresh_at p),
    truncated_same memory_delivers hv ho hs hp hne ⟨0, rfl, Nat.zero_le _, hl, rfl⟩,
    truncated_same string_delivers hv ho hs hp hne ⟨Nat.zero_le _, hl, rfl⟩,
    truncated_same file_delivers hv ho hs hp hne ⟨⟨rfl, by simp, Nat.zero_le _, by simp⟩, rfl⟩⟩

/-! ### Writing -/

/-- **C109** Writing to a string device appends the bytes of the value. -/
theorem string_written (t : Ty) (v : Val t) (d : Device.Str) :
    writeDev stringSink t v d = some (true, { d with s := d.s ++ image t v }) := by
  rw [write_send, Actl.TextTree.string_send]; rfl

/-- **C109** Writing to a memory device stores as many bytes of the value as there is room for and reports success
exactly if that is all of them. -/
theorem memory_written (t : Ty) (v : Val t) {data : List Byte} (hl : data.length < 2 ^ 63) {k : Nat} (hk : k ≤ data.length) :
    writeDev memorySink t v ⟨data, k⟩ = some (decide ((image t v).length ≤ data.length - k),
      ⟨data.take k ++ (image t v).take (data.length - k) ++ data.drop (k + (image t v).length),
        ((k + min (image t v).length (data.length - k) : Nat) : Int)⟩) := by
  rw [write_send, Actl.TextTree.memory_send _ hk hl]; rfl

/-- **C109** A file opened for output alone contains the bytes of the value. -/
theorem file_written {mode : Nat} (hm : mode = 4 ∨ mode = 5) (e : Option (List Byte)) (t : Ty) (v : Val t) :
    ((FileDevice.openFile mode e).bind (writeDev fileSink t v)).map (fun p => (p.1, p.2.data)) = some (true, image t v) := by
  have h := FileDevice.write_out hm e (spans t v)
  have : writeDev fileSink t v = fun f => (FileDevice.writeAll (spans t v) f).map fun g => (true, g) := by
    funext f; rw [write_send, file_send]
  rw [this]
  cases ho : FileDevice.openFile mode e with
  | none => rw [ho] at h; cases h
  | some f =>
    rw [ho, Option.bind_some] at h
    rw [Option.bind_some, Option.map_map]
    cases hw : FileDevice.writeAll (spans t v) f with
    | none => rw [hw] at h; cases h
    | some g =>
      rw [hw] at h
      simp only [Option.map_some, Option.some.injEq] at h
      simp [h, image, spans]

/-- **C109** A buffered writer of any capacity reports success.  After the destructor the underlying device has received the bytes
of the value **exactly if** no number ends on a boundary of the buffer while the buffer holds earlier bytes. -/
theorem buffered_written (t : Ty) (v : Val t) {buf : List Byte} (hB : buf ≠ []) :
    ∃ w, writeDev bufferedSink t v (Writer.fresh buf) = some (true, w) ∧
      (w.flush.sink = image t v ↔ NoBoundary buf.length 0 ((fields t v).map fun f => .write f.bytes)) := by
  have hI : (Writer.fresh buf).ptr < (Writer.fresh buf).buf.length := by
    simpa [Writer.fresh] using List.length_pos_iff.mpr hB
  refine ⟨_, by rw [write_send, Actl.TextTree.buffered_send], ?_⟩
  have := Buffered.writer_iff ((spans t v).map .write) _ hI
  rw [Actl.TextTree.written_spans] at this
  simp only [Writer.fresh, List.take_zero, List.nil_append] at this
  have e : (fields t v).map (fun f => Buffered.WOp.write f.bytes) = (spans t v).map .write := by
    rw [spans, List.map_map]; rfl
  rw [e]
  exact this

theorem noBoundary_short {B : Nat} (ss : List (List Byte)) {p : Nat} (hp : p + ss.flatten.length < B) :
    NoBoundary B p (ss.map .write) := by
  induction ss generalizing p with
  | nil => trivial
  | cons a l ih =>
    simp only [List.flatten_cons, List.length_append] at hp
    refine ⟨.inl (by omega), ?_⟩
    rw [Nat.mod_eq_of_lt (by omega)]
    exact ih (by omega)

/-- **C109** In particular they arrive if they are fewer than the buffer holds. -/
theorem buffered_written_short (t : Ty) (v : Val t) {buf : List Byte} (hl : (image t v).length < buf.length) :
    ∃ w, writeDev bufferedSink t v (Writer.fresh buf) = some (true, w) ∧ w.flush.sink = image t v := by
  obtain ⟨w, h1, h2⟩ := buffered_written t v (buf := buf) (by rintro rfl; simp at hl)
  refine ⟨w, h1, h2.mpr ?_⟩
  have := noBoundary_short (B := buf.length) ((fields t v).map Field.bytes) (p := 0) (by simpa [image] using hl)
  rwa [List.map_map] at this

theorem noBoundary_at {B : Nat} (a : List (List Byte)) (s : List Byte) (b : List (List Byte)) {p : Nat} (hp : p < B)
    (h : NoBoundary B p ((a ++ s :: b).map .write)) :
    (p + a.flatten.length) % B + s.length < B ∨ (p + a.flatten.length + s.length) % B ≠ 0 ∨ (p + a.flatten.length) % B = 0 := by
  induction a generalizing p with
  | nil =>
    obtain ⟨h, -⟩ := h
    simp only [List.flatten_nil, List.length_nil, Nat.add_zero, Nat.mod_eq_of_lt hp]
    exact h
  | cons c l ih =>
    obtain ⟨-, h⟩ := h
    have := ih (Nat.mod_lt _ (by omega)) h
    simp only [List.flatten_cons, List.length_append]
    have e : ∀ n, ((p + c.length) % B + n) % B = (p + (c.length + n)) % B := by
      intro n; rw [Nat.mod_add_mod, Nat.add_assoc]
    rw [Nat.add_assoc ((p + c.length) % B), e, e] at this
    rwa [Nat.add_assoc p, Nat.add_assoc c.length]

theorem bytes_length (f : Field) : f.bytes.length = f.size := by simp [Field.bytes]

theorem numbers_boundary {B n : Nat} (hn : 0 < n) (hB : n < B) (pre : List (List Byte)) (hp : pre.flatten.length < B)
    (hd : n ∣ B - pre.flatten.length) (xs : List (List Byte)) (hx : ∀ x ∈ xs, x.length = n)
    (hl : B ≤ pre.flatten.length + n * xs.length) : ¬NoBoundary B 0 ((pre ++ xs).map .write) := by
  obtain ⟨m, hm⟩ := hd
  have hm0 : m ≠ 0 := by rintro rfl; omega
  obtain ⟨j, rfl⟩ := Nat.exists_eq_succ_of_ne_zero hm0
  have hj : j < xs.length := by
    by_contra hc
    have : n * xs.length ≤ n * j := Nat.mul_le_mul_left n (by omega)
    rw [Nat.succ_eq_add_one, Nat.mul_add] at hm
    omega
  intro h
  have hsplit : pre ++ xs = (pre ++ xs.take j) ++ xs[j] :: xs.drop (j + 1) := by
    rw [List.append_assoc, List.getElem_cons_drop, List.take_append_drop]
  rw [hsplit] at h
  have hlen : ∀ ys : List (List Byte), (∀ y ∈ ys, y.length = n) → ys.flatten.length = n * ys.length := by
    intro ys
    induction ys with
    | nil => simp
    | cons y ys ih =>
      intro hy
      rw [List.flatten_cons, List.length_append, hy y (by simp), ih fun z hz => hy z (by simp [hz]), List.length_cons]
      ring
  have h1 : (pre ++ xs.take j).flatten.length = B - n := by
    rw [List.flatten_append, List.length_append, hlen _ fun y hy => hx y (List.mem_of_mem_take hy), List.length_take,
      Nat.min_eq_left (by omega)]
    rw [Nat.succ_eq_add_one, Nat.mul_add] at hm
    omega
  have := noBoundary_at _ _ _ (by omega) h
  rw [h1, hx _ (List.getElem_mem _), Nat.zero_add, Nat.sub_add_cancel (by omega), Nat.mod_self,
    Nat.mod_eq_of_lt (by omega)] at this
  omega

/-- **C109** (negation) *Every* vector of numbers of 1, 2, 4 or 8 bytes that does not fit into the buffer is corrupted, if
the size of the buffer is a multiple of 8 and more than 8: the call reports success but the underlying device does not
receive the bytes of the vector. -/
theorem vector_corrupted {n : Nat} (hn : n ∣ 8) {buf : List Byte} (h8 : 8 ∣ buf.length) (hB : 8 < buf.length)
    (v : List (BitVec (8 * n))) (hl : buf.length ≤ (image (.vec (.arith n)) v).length) :
    ∃ w, writeDev bufferedSink (.vec (.arith n)) v (Writer.fresh buf) = some (true, w) ∧
      w.flush.sink ≠ image (.vec (.arith n)) v := by
  obtain ⟨w, h1, h2⟩ := buffered_written (.vec (.arith n)) v (buf := buf) (by rintro rfl; simp at hB)
  refine ⟨w, h1, fun h => ?_⟩
  have hn0 : 0 < n := Nat.pos_of_dvd_of_pos hn (by decide)
  have hn8 : n ≤ 8 := Nat.le_of_dvd (by decide) hn
  have hf : (fields (.vec (.arith n)) v).map Field.bytes =
      [Field.bytes ⟨8, v.length⟩] ++ v.map fun x => Field.bytes ⟨n, x.toNat⟩ := by
    simp only [fields, List.map_cons, List.map_flatMap, List.map_nil, List.singleton_append]
    congr 1
    have key : ∀ l : List (BitVec (8 * n)), (l.flatMap fun x => [(⟨n, x.toNat⟩ : Field)]).map Field.bytes =
        l.map fun x => Field.bytes ⟨n, x.toNat⟩ := by
      intro l; induction l <;> simp_all
    exact key v
  have hlen : (image (.vec (.arith n)) v).length = 8 + n * v.length := by
    change ((fields (.vec (.arith n)) v).map Field.bytes).flatten.length = _
    rw [hf]
    simp [bytes_length, List.length_flatten, Function.comp_def, Nat.mul_comm]
  have := numbers_boundary (B := buf.length) hn0 (by omega) [Field.bytes ⟨8, v.length⟩] (by simpa [bytes_length] using hB)
    (by simpa [bytes_length] using (Nat.dvd_sub (hn.trans h8) hn)) (v.map fun x => Field.bytes ⟨n, x.toNat⟩)
    (by simp [bytes_length]) (by rw [hlen] at hl; simpa [bytes_length] using hl)
  rw [← hf, List.map_map] at this
  exact this (h2.mp h)

/-! ### Round trips -/

/-- **C109** What is appended to a string is read back from where it begins, by the same device. -/
theorem string_value_roundtrip {t : Ty} {v old : Val t} (hv : WF t v) (ho : WF t old) (hs : NoSeq t old) {str : List Byte}
    (hl : (str ++ image t v).length < 2 ^ 63) :
    ∃ d e, writeDev stringSink t v ⟨str, str.length⟩ = some (true, d) ∧ readDev stringSource t old d = some (true, v, e) := by
  obtain ⟨e, he, -⟩ := string_value hv ho hs str [] (by simpa using hl)
  exact ⟨_, e, string_written t v _, by simpa using he⟩

/-- **C109** What is written to a memory device is read back, wherever it is written, if there is room. -/
theorem memory_value_roundtrip {t : Ty} {v old : Val t} (hv : WF t v) (ho : WF t old) (hs : NoSeq t old) {data : List Byte}
    (hl : data.length < 2 ^ 63) {k : Nat} (hk : k + (image t v).length ≤ data.length) :
    ∃ m e, writeDev memorySink t v ⟨data, k⟩ = some (true, m) ∧ readDev memorySource t old ⟨m.data, k⟩ = some (true, v, e) := by
  have hw := memory_written t v hl (k := k) (by omega)
  obtain ⟨e, he, -⟩ := memory_value hv ho hs (data.take k) (data.drop (k + (image t v).length)) (by simp; omega)
  rw [List.take_of_length_le (l := image t v) (by omega), decide_eq_true (by omega)] at hw
  refine ⟨_, e, hw, ?_⟩
  rw [List.length_take, Nat.min_eq_left (by omega)] at he
  exact he

/-- **C109** What is written to a file and nothing else is read back when the file is opened again for input. -/
theorem file_value_roundtrip {mode : Nat} (hm : mode = 4 ∨ mode = 5) (e : Option (List Byte)) {t : Ty} {v old : Val t}
    (hv : WF t v) (ho : WF t old) (hs : NoSeq t old) :
    ∃ f g, (FileDevice.openFile mode e).bind (writeDev fileSink t v) = some (true, f) ∧
      FileDevice.openFile 2 (some f.data) = some g ∧ ∃ g', readDev fileSource t old g = some (true, v, g') := by
  have h := file_written hm e t v
  rw [Option.map_eq_some_iff] at h
  obtain ⟨⟨ok, f⟩, h1, h2⟩ := h
  simp only [Prod.mk.injEq] at h2
  obtain ⟨rfl, h2⟩ := h2
  refine ⟨f, _, h1, rfl, ?_⟩
  rw [h2]
  obtain ⟨g', hg, -⟩ := file_value (mode := 2) (f := ⟨image t v, 0, false, true, false, false, .nothing⟩) (by decide) rfl hv
    ho hs [] (by rw [List.append_nil]; rfl) (by simp)
  exact ⟨g', hg⟩

/-- **C109** Through buffered devices of any capacities, if no number ends on a boundary of the buffer of the writer while
that holds earlier bytes. -/
theorem buffered_value_roundtrip {t : Ty} {v old : Val t} (hv : WF t v) (ho : WF t old) (hs : NoSeq t old) {buf : List Byte}
    (hB : buf ≠ []) (h : NoBoundary buf.length 0 ((fields t v).map fun f => .write f.bytes)) {B : Nat} (hB' : 0 < B) :
    ∃ w, writeDev bufferedSink t v (Writer.fresh buf) = some (true, w) ∧
      ∃ d, readDev (bufferedSource B) t old (Buffered.Reader.fresh w.flush.sink) = some (true, v, d) := by
  obtain ⟨w, h1, h2⟩ := buffered_written t v hB
  obtain ⟨d, h3, -⟩ := buffered_value hB' hv ho hs []
  rw [List.append_nil, ← h2.mpr h] at h3
  exact ⟨w, h1, d, h3⟩

/-! ### Cases -/

/-- The value of C24, from a buffer of three characters and from a file. -/
example : (readDev (bufferedSource 3) exTy (default exTy) (Buffered.Reader.fresh (image exTy exVal ++ [9#8]))).map
    (fun p => (p.1, fields exTy p.2.1 |>.map (·.value), p.2.2.read 3 5 |>.map (·.1))) =
      some (true, [2, 0x01020304, 2, 7, 8, 5, 0], some [9#8]) := by decide +kernel

example : (readDev fileSource exTy (default exTy) ⟨(image exTy exVal).take 33, 0, false, true, false, false, .nothing⟩).map
    (fun p => p.1) = some false := by decide +kernel

/-- A value of 34 bytes, all of which arrive through a buffer of 9 characters. -/
example : NoBoundary 9 0 ((fields exTy exVal).map fun f => .write f.bytes) := by
  refine ⟨?_, ?_, ?_, ?_, ?_, ?_, ?_, trivial⟩ <;> decide +kernel

/-- Eight bytes in a vector, with a buffer of 16 characters: what was waiting is sent twice. -/
example : (writeDev bufferedSink (.vec (.arith 1)) ([1#8, 2#8, 3#8, 4#8, 5#8, 6#8, 7#8, 8#8] : List (BitVec 8))
    (Writer.fresh (List.replicate 16 0#8))).map (fun p => (p.1, p.2.flush.sink)) = some (true,
      [8#8, 0#8, 0#8, 0#8, 0#8, 0#8, 0#8, 0#8, 1#8, 2#8, 3#8, 4#8, 5#8, 6#8, 7#8, 8#8,
        8#8, 0#8, 0#8, 0#8, 0#8, 0#8, 0#8, 0#8, 1#8, 2#8, 3#8, 4#8, 5#8, 6#8, 7#8]) := by decide +kernel

end Actl.Binary
