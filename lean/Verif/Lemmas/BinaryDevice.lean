import Verif.Model.BinaryDevice
import Verif.Spec.BinaryDevice
import Verif.Lemmas.TextDevice
import Verif.Lemmas.TextDeviceWrite
import Verif.Props.Binary
import Verif.Props.FileDevice
import Verif.Props.Buffered

/-!
Reading binary values from a device is reading from the remaining characters; writing them is writing their numbers.
-/

namespace Actl.Binary

open Actl.Text
open Actl.TextTree (Sink send send_append bufferedSink memorySink stringSink)

variable {δ : Type}

/-! ### Reading -/

/-- In the states `R d s` the device delivers the characters `s`. -/
def Delivers (src : Source δ) (R : δ → List Byte → Prop) : Prop :=
  ∀ d s k, R d s → ∃ d', src k d = some (s.take k, d') ∧ R d' (s.drop k)

/-- The same result from the device and from the characters. -/
def Same {β : Type} (R : δ → List Byte → Prop) (a : Option (Bool × β × δ)) (b : Bool × β × List Byte) : Prop :=
  ∃ d', a = some (b.1, b.2.1, d') ∧ R d' b.2.2

theorem readBytes_same {src : Source δ} {R : δ → List Byte → Prop} (h : Delivers src R) (old : List Byte) {d : δ}
    {s : List Byte} (hd : R d s) : Same R (readBytesDev src old d) (readBytes old s) := by
  obtain ⟨d', h1, h2⟩ := h d s old.length hd
  refine ⟨d', ?_, h2⟩
  rw [readBytesDev, h1]
  simp only [readBytes, Option.map_some, Option.some.injEq, Prod.mk.injEq, and_true]
  rw [Bool.eq_iff_iff]
  simp

theorem readRange_same {α : Type} {R : δ → List Byte → Prop} {f : α → δ → Option (Bool × α × δ)}
    {g : α → List Byte → Bool × α × List Byte} (h : ∀ x {d s}, R d s → Same R (f x d) (g x s)) (xs : List α) {d : δ}
    {s : List Byte} (hd : R d s) : Same R (readRangeDev f xs d) (readRange g xs s) := by
  induction xs generalizing d s with
  | nil => exact ⟨d, rfl, hd⟩
  | cons x xs ih =>
    obtain ⟨d', h1, h2⟩ := h x hd
    rw [readRangeDev, readRange, h1]
    generalize g x s = q at h2
    obtain ⟨_ | _, y, s'⟩ := q
    · exact ⟨d', rfl, h2⟩
    · obtain ⟨d'', h3, h4⟩ := ih h2
      refine ⟨d'', ?_, h4⟩
      change (readRangeDev f xs d').map _ = _
      rw [h3]
      rfl

theorem readEmplace_same {α : Type} {R : δ → List Byte → Prop} {f : α → δ → Option (Bool × α × δ)}
    {g : α → List Byte → Bool × α × List Byte} (h : ∀ x {d s}, R d s → Same R (f x d) (g x s)) (fresh : α) (n : Nat)
    (xs : List α) {d : δ} {s : List Byte} (hd : R d s) :
    Same R (readEmplaceDev f fresh n xs d) (readEmplace g fresh n xs s) := by
  induction n generalizing d s xs with
  | zero => exact ⟨d, rfl, hd⟩
  | succ n ih =>
    obtain ⟨d', h1, h2⟩ := h fresh hd
    rw [readEmplaceDev, readEmplace, h1]
    generalize g fresh s = q at h2
    obtain ⟨_ | _, y, s'⟩ := q
    · exact ⟨d', rfl, h2⟩
    · simpa using ih _ h2

theorem read_same {src : Source δ} {R : δ → List Byte → Prop} (h : Delivers src R) (t : Ty) (x : Val t) {d : δ}
    {s : List Byte} (hd : R d s) : Same R (readDev src t x d) (read t x s) := by
  induction t generalizing d s with
  | unit => exact ⟨d, rfl, hd⟩
  | arith n =>
    obtain ⟨d', h1, h2⟩ := readBytes_same h (toBytes n (BitVec.toNat (w := 8 * n) x)) hd
    exact ⟨d', by rw [readDev, h1, read]; rfl, h2⟩
  | pair a b iha ihb =>
    obtain ⟨d', h1, h2⟩ := iha x.1 hd
    rw [readDev, read, h1]
    generalize read a x.1 s = q at h2
    obtain ⟨_ | _, y, s'⟩ := q
    · exact ⟨d', rfl, h2⟩
    · obtain ⟨d'', h3, h4⟩ := ihb x.2 h2
      refine ⟨d'', ?_, h4⟩
      change (readDev src b x.2 d').map _ = _
      rw [h3]
      rfl
  | array n t ih => exact readRange_same (fun x _ _ hd => ih x hd) x hd
  | vec t ih =>
    obtain ⟨d', h1, h2⟩ := readBytes_same h (toBytes 8 0) hd
    rw [readDev, read, h1]
    generalize readBytes (toBytes 8 0) s = q at h2
    obtain ⟨_ | _, y, s'⟩ := q
    · exact ⟨d', rfl, h2⟩
    · exact readRange_same (fun x _ _ hd => ih x hd) _ h2
  | seq t ih =>
    obtain ⟨d', h1, h2⟩ := readBytes_same h (toBytes 8 0) hd
    rw [readDev, read, h1]
    generalize readBytes (toBytes 8 0) s = q at h2
    obtain ⟨_ | _, y, s'⟩ := q
    · exact ⟨d', rfl, h2⟩
    · exact readEmplace_same (fun x _ _ hd => ih x hd) _ _ _ h2

/-- The buffered reader is at the given distance in the data of the underlying device. -/
def BufferedAt (data : List Byte) (r : Buffered.Reader) (s : List Byte) : Prop :=
  ∃ pos, Buffered.Rel data pos r ∧ r.ptr ≤ r.buf.length ∧ s = data.drop pos

theorem buffered_delivers {B : Nat} (hB : 0 < B) (data : List Byte) : Delivers (bufferedSource B) (BufferedAt data) := by
  rintro r s k ⟨pos, h1, h2, rfl⟩
  obtain ⟨r', h3, h4, -⟩ := Buffered.read_rel hB h1 h2 k
  refine ⟨r', h3, _, h4, ?_, ?_⟩
  · by_contra hlt
    obtain ⟨pre, g1, g2, g3⟩ := h4
    obtain ⟨pre0, e1, e2, -⟩ := h1
    have hr := g3 (by omega)
    have hl := congrArg List.length g1
    have hl0 := congrArg List.length e1
    rw [hr] at hl
    simp at hl hl0
    omega
  · rw [List.drop_drop]
    by_cases hk : k ≤ data.length - pos
    · rw [Nat.min_eq_left hk]
    · rw [List.drop_eq_nil_of_le (by omega), List.drop_eq_nil_of_le (by omega)]

theorem fresh_at (data : List Byte) : BufferedAt data (Buffered.Reader.fresh data) data :=
  ⟨0, ⟨[], by simp [Buffered.Reader.fresh], rfl, by simp [Buffered.Reader.fresh]⟩, Nat.le_refl _, rfl⟩

theorem remaining_eq {len n : Nat} (h : n ≤ len) (hl : len < 2 ^ 63) : Device.remaining len (n : Int) = len - n := by
  unfold Device.remaining
  rw [Int.emod_eq_of_lt (by omega) (by omega)]
  omega

theorem take_drop_min (data : List Byte) (n k : Nat) :
    (data.drop n).take (min k (data.length - n)) = (data.drop n).take k ∧
      data.drop (n + min k (data.length - n)) = (data.drop n).drop k := by
  refine ⟨?_, ?_⟩
  · by_cases hk : k ≤ data.length - n
    · rw [Nat.min_eq_left hk]
    · rw [List.take_of_length_le (by simp; omega), List.take_of_length_le (by simp; omega)]
  · rw [List.drop_drop]
    by_cases hk : k ≤ data.length - n
    · rw [Nat.min_eq_left hk]
    · rw [List.drop_eq_nil_of_le (by omega), List.drop_eq_nil_of_le (by omega)]

/-- The memory device is at the given distance. -/
def MemAt (m : Device.Mem) (s : List Byte) : Prop :=
  ∃ n : Nat, m.pos = n ∧ n ≤ m.data.length ∧ m.data.length < 2 ^ 63 ∧ s = m.data.drop n

theorem memory_delivers : Delivers memorySource MemAt := by
  rintro ⟨data, pos⟩ s k ⟨n, h1, h2, h3, rfl⟩
  simp only at h1 h2 h3
  subst h1
  obtain ⟨g1, g2⟩ := take_drop_min data n k
  refine ⟨⟨data, ((n + min k (data.length - n) : Nat) : Int)⟩, ?_, _, rfl, by simp only; omega, h3, g2.symm⟩
  simp only [memorySource, Device.Mem.read, remaining_eq h2 h3]
  rw [if_pos (by simp [Device.inside]; omega)]
  simp [g1]

theorem string_delivers : Delivers stringSource Actl.TextTree.StrLeft := by
  rintro ⟨data, n⟩ s k ⟨h2, h3, rfl⟩
  simp only at h2 h3
  obtain ⟨g1, g2⟩ := take_drop_min data n k
  refine ⟨⟨data, n + min k (data.length - n)⟩, ?_, by simp only; omega, h3, g2.symm⟩
  simp only [stringSource, Device.Str.read, remaining_eq h2 h3]
  rw [if_pos (by simp [Device.inside]; omega)]
  simp [g1]

def FileLeft (f : FileDevice.Stream) (s : List Byte) : Prop :=
  FileDevice.Readable f ∧ s = f.data.drop f.pos

theorem file_delivers : Delivers fileSource FileLeft := by
  rintro f s k ⟨h1, rfl⟩
  refine ⟨_, FileDevice.read_eq h1 k, ⟨h1.readable, by simp, Nat.min_le_right _ _, ?_⟩, ?_⟩
  · simp only [Bool.or_eq_true, Bool.and_eq_true, beq_iff_eq, decide_eq_true_eq]
    rintro (⟨h, rfl⟩ | h)
    · have := h1.eof h; omega
    · omega
  · simp only [List.drop_drop]
    by_cases hk : f.pos + k ≤ f.data.length
    · rw [Nat.min_eq_left hk]
    · rw [List.drop_eq_nil_of_le (by omega), List.drop_eq_nil_of_le (by omega)]

/-! ### Writing -/

theorem toBytes_eq (n x : Nat) : toBytes n x = Field.bytes ⟨n, x⟩ := by
  induction n generalizing x with
  | zero => rfl
  | succ n ih =>
    rw [toBytes, ih]
    simp only [Field.bytes, List.range_succ_eq_map, List.map_cons, List.map_map, pow_zero, Nat.div_one]
    congr 1
    refine List.map_congr_left fun i _ => ?_
    simp only [Function.comp_apply, Nat.succ_eq_add_one, Nat.pow_succ']
    rw [Nat.div_div_eq_div_mul]

def spans (t : Ty) (x : Val t) : List (List Byte) := (fields t x).map Field.bytes

theorem writeAll_send {α : Type} {wr : Sink δ} {w : α → δ → Option (Bool × δ)} {sp : α → List (List Byte)}
    (h : ∀ x d, w x d = send wr (sp x) d) (xs : List α) (d : δ) :
    writeAllDev w xs d = send wr (xs.flatMap sp) d := by
  induction xs generalizing d with
  | nil => rfl
  | cons x xs ih =>
    rw [writeAllDev, List.flatMap_cons, send_append, h]
    congr 1
    funext p
    rw [ih]

theorem send_one (wr : Sink δ) (s : List Byte) (d : δ) : send wr [s] d = wr d s := by
  rw [send]
  rcases wr d s with _ | ⟨_ | _, d'⟩ <;> rfl

theorem send_cons (wr : Sink δ) (s : List Byte) (ss : List (List Byte)) (d : δ) :
    send wr (s :: ss) d = (wr d s).bind fun p => if p.1 then send wr ss p.2 else some p := rfl

theorem spans_flatMap (t : Ty) (xs : List (Val t)) :
    (List.flatMap (fields t) xs).map Field.bytes = xs.flatMap (spans t) := by
  rw [List.map_flatMap]; rfl

theorem write_send (wr : Sink δ) (t : Ty) (x : Val t) (d : δ) : writeDev wr t x d = send wr (spans t x) d := by
  induction t generalizing d with
  | unit => rfl
  | arith n => exact (congrArg (wr d) (toBytes_eq _ _)).trans (send_one wr _ d).symm
  | pair a b iha ihb =>
    have : spans (.pair a b) x = spans a x.1 ++ spans b x.2 := List.map_append
    rw [this, writeDev, send_append, iha]
    congr 1
    funext p
    rw [ihb]
  | array n t ih =>
    have : spans (.array n t) x = List.flatMap (spans t) (show List (Val t) from x) := spans_flatMap t x
    rw [this]
    exact writeAll_send ih x d
  | vec t ih =>
    have : spans (.vec t) x = Field.bytes ⟨8, List.length x⟩ :: List.flatMap (spans t) (show List (Val t) from x) :=
      congrArg _ (spans_flatMap t x)
    rw [this, writeDev, toBytes_eq, send_cons]
    congr 1
    funext p
    have := writeAll_send ih (show List (Val t) from x) p.2
    exact congrArg (fun a => if p.1 then a else some p) this
  | seq t ih =>
    have : spans (.seq t) x = Field.bytes ⟨8, List.length x⟩ :: List.flatMap (spans t) (show List (Val t) from x) :=
      congrArg _ (spans_flatMap t x)
    rw [this, writeDev, toBytes_eq, send_cons]
    congr 1
    funext p
    have := writeAll_send ih (show List (Val t) from x) p.2
    exact congrArg (fun a => if p.1 then a else some p) this

theorem writeAll_flat {α : Type} {w : α → List Byte} {sp : α → List (List Byte)} (h : ∀ x, w x = (sp x).flatten)
    (xs : List α) : writeAll w xs = (xs.flatMap sp).flatten := by
  induction xs with
  | nil => rfl
  | cons x xs ih => rw [writeAll, ih, h]; simp

theorem write_image (t : Ty) (x : Val t) : write t x = image t x := by
  change write t x = (spans t x).flatten
  induction t with
  | unit => rfl
  | arith n => rw [write, toBytes_eq]; simp [spans, fields]
  | pair a b iha ihb =>
    have : spans (.pair a b) x = spans a x.1 ++ spans b x.2 := List.map_append
    rw [this, write, iha, ihb, List.flatten_append]
  | array n t ih =>
    have : spans (.array n t) x = List.flatMap (spans t) (show List (Val t) from x) := spans_flatMap t x
    rw [this]
    exact writeAll_flat ih x
  | vec t ih =>
    have : spans (.vec t) x = Field.bytes ⟨8, List.length x⟩ :: List.flatMap (spans t) (show List (Val t) from x) :=
      congrArg _ (spans_flatMap t x)
    rw [this, List.flatten_cons, ← toBytes_eq, ← writeAll_flat ih]
    rfl
  | seq t ih =>
    have : spans (.seq t) x = Field.bytes ⟨8, List.length x⟩ :: List.flatMap (spans t) (show List (Val t) from x) :=
      congrArg _ (spans_flatMap t x)
    rw [this, List.flatten_cons, ← toBytes_eq, ← writeAll_flat ih]
    rfl

theorem file_send (ss : List (List Byte)) (f : FileDevice.Stream) :
    send fileSink ss f = (FileDevice.writeAll ss f).map fun g => (true, g) := by
  induction ss generalizing f with
  | nil => rfl
  | cons s ss ih =>
    rw [send, FileDevice.writeAll, fileSink]
    cases FileDevice.write s f with
    | none => rfl
    | some g => simp [ih]

end Actl.Binary
