import Verif.Model.BufferedOver
import Verif.Props.FailingDevice

/-!
C148: a buffered device over a device that fails.
-/

namespace Actl.Failing

open Actl.Text Actl.Buffered

variable {δ : Type} {D : Dev δ}

/-- Of every span `s` the device takes characters `g` with `R g s`, and none at a flush. -/
structure Gets (D : Dev δ) (R : List Byte → List Byte → Prop) : Prop where
  write : ∀ d s, ∃ g, R g s ∧ D.received (D.call d (.write s)).2 = D.received d ++ g
  flush : ∀ d, D.received (D.call d .flush).2 = D.received d

/-- `o` is `w` with the sink behind the device: of every chunk that was sent the device has taken the characters that `R` says. -/
structure Sim (D : Dev δ) (R : List Byte → List Byte → Prop) (r : List Byte) (o : Over δ) (w : Writer) : Prop where
  buf : o.buf = w.buf
  ptr : o.ptr = w.ptr
  sent : ∃ chunks got, chunks.flatten = w.sink ∧ List.Forall₂ R got chunks ∧ D.received o.dev = r ++ got.flatten

variable {R : List Byte → List Byte → Prop}

theorem sim_send (hD : Gets D R) {r : List Byte} {o : Over δ} {w : Writer} (h : Sim D R r o w) (s : List Byte) :
    Sim D R r (o.send D s) { w with sink := w.sink ++ s } := by
  obtain ⟨h1, h2, chunks, got, h3, h4, h5⟩ := h
  obtain ⟨g, g1, g2⟩ := hD.write o.dev s
  refine ⟨h1, h2, chunks ++ [s], got ++ [g], by simp [h3], List.rel_append h4 (.cons g1 .nil), ?_⟩
  simp only [Over.send]
  rw [g2, h5]
  simp

theorem sim_overflow (hD : Gets D R) {r : List Byte} {o : Over δ} {w : Writer} (h : Sim D R r o w) : Sim D R r (o.overflow D) w.overflow := by
  obtain ⟨h1, h2, h3⟩ := sim_send hD h (o.buf.take o.ptr)
  refine ⟨h1, rfl, ?_⟩
  simp only [Over.overflow, Writer.overflow]
  rw [← h.buf, ← h.ptr]
  exact h3

theorem sim_write (hD : Gets D R) {r : List Byte} {o : Over δ} {w : Writer} (h : Sim D R r o w) (s : List Byte) :
    Sim D R r (o.write D s) (w.write s) := by
  have hb := h.buf
  have hq := h.ptr
  simp only [Over.write, Writer.write]
  rw [hb, hq]
  by_cases hs : s.length < w.buf.length - w.ptr
  · simp only [hs, if_true]
    exact ⟨rfl, rfl, h.sent⟩
  · simp only [hs, if_false, Over.send]
    have h1 : Sim D R r ({ o with buf := w.buf.take w.ptr ++ s.take (w.buf.length - w.ptr) } : Over δ)
        { w with buf := w.buf.take w.ptr ++ s.take (w.buf.length - w.ptr) } := ⟨rfl, hq, h.sent⟩
    have h2 := sim_send hD h1 (w.buf.take w.ptr ++ s.take (w.buf.length - w.ptr))
    have h3 := sim_send hD h2 ((s.drop (w.buf.length - w.ptr)).take
      (s.length - (w.buf.length - w.ptr) - (s.length - (w.buf.length - w.ptr)) % w.buf.length))
    simp only [Over.send] at h2 h3
    by_cases h4 : (s.length - (w.buf.length - w.ptr)) % w.buf.length < s.length - (w.buf.length - w.ptr)
    · simp only [h4, if_true]
      split
      · exact ⟨rfl, rfl, h3.sent⟩
      · exact ⟨rfl, rfl, h3.sent⟩
    · simp only [h4, if_false]
      split
      · exact ⟨rfl, rfl, h2.sent⟩
      · exact ⟨rfl, rfl, h2.sent⟩

theorem sim_step (hD : Gets D R) {r : List Byte} {o : Over δ} {w : Writer} (h : Sim D R r o w) (op : WOp) :
    Sim D R r (o.step D op) (w.step op) := by
  cases op with
  | put c =>
    have h1 : Sim D R r ({ o with buf := o.buf.set o.ptr c, ptr := o.ptr + 1 } : Over δ) { w with buf := w.buf.set w.ptr c, ptr := w.ptr + 1 } :=
      ⟨by simp only [h.buf, h.ptr], by simp only [h.ptr], h.sent⟩
    simp only [Over.step, Writer.step, Over.put, Writer.put, Over.move, Writer.move]
    have e : (o.ptr + 1 = (o.buf.set o.ptr c).length) = (w.ptr + 1 = (w.buf.set w.ptr c).length) := by rw [h.ptr, h.buf]
    simp only [e]
    split
    · exact sim_overflow hD h1
    · exact h1
  | write s => exact sim_write hD h s
  | flush =>
    obtain ⟨h1, h2, chunks, got, h3, h4, h5⟩ := sim_overflow hD h
    refine ⟨h1, h2, chunks, got, h3, h4, ?_⟩
    simp only [Over.step, Over.flush]
    rw [hD.flush, h5]

theorem writer_keep (w : Writer) (hw : w.ptr < w.buf.length) (op : WOp) : (w.step op).ptr < (w.step op).buf.length := by
  cases op with
  | put c =>
    obtain ⟨h1, h2, -⟩ := writer_put hw c
    simp only [Writer.step]
    rw [h1, h2]
    exact Nat.mod_lt _ (by omega)
  | write s =>
    obtain ⟨h1, h2, -⟩ := writer_write hw s
    simp only [Writer.step]
    omega
  | flush => simp only [Writer.step, Writer.flush, Writer.overflow]; omega

theorem sim_run (hD : Gets D R) {r : List Byte} (ops : List WOp) {o : Over δ} {w : Writer} (h : Sim D R r o w) (hp : w.ptr < w.buf.length) :
    Sim D R r (ops.foldl (Over.step D) o) (ops.foldl Writer.step w) := by
  induction ops generalizing o w with
  | nil => exact h
  | cons op ops ih => exact ih (sim_step hD h op) (writer_keep w hp op)

theorem run_sent (hD : Gets D R) {buf : List Byte} (hB : buf ≠ []) (d : δ) (ops : List WOp) :
    ∃ chunks got, chunks.flatten = (ops.foldl Writer.step (Writer.fresh buf)).sink ∧ List.Forall₂ R got chunks ∧
      D.received (ops.foldl (Over.step D) ⟨buf, 0, d⟩).dev = D.received d ++ got.flatten :=
  (sim_run hD ops (w := Writer.fresh buf) ⟨rfl, rfl, [], [], rfl, .nil, by simp⟩
    (by simpa [Writer.fresh] using List.length_pos_iff.mpr hB)).sent

theorem honest_flush (hD : D.Honest) (d : δ) : D.received (D.call d .flush).2 = D.received d := by
  rw [(hD d .flush).2]
  simp [chars]

/-- **C148** Any calls on a buffered device over a device that tells the truth and may fail: the buffer sends the chunks that it would send to a device that never fails
(C21 says what they are together), and of every chunk a beginning arrives. -/
theorem over_chunks (hD : D.Honest) {buf : List Byte} (hB : buf ≠ []) (d : δ) (ops : List WOp) :
    ∃ chunks got, chunks.flatten = (ops.foldl Writer.step (Writer.fresh buf)).sink ∧ List.Forall₂ (· <+: ·) got chunks ∧
      D.received (ops.foldl (Over.step D) ⟨buf, 0, d⟩).dev = D.received d ++ got.flatten :=
  run_sent ⟨fun d s => ⟨_, List.take_prefix _ _, (hD d (.write s)).2⟩, honest_flush hD⟩ hB d ops

/-- **C148** If the device never fails, it receives what C21 says: the characters written, once and in order, exactly if no span ends on a boundary of the buffer
while earlier characters wait. -/
theorem over_full (hD : D.Honest) (hf : ∀ d op, (D.call d op).1 = (chars op).length) {buf : List Byte} (hB : buf ≠ []) (d : δ) (ops : List WOp) :
    D.received (ops.foldl (Over.step D) ⟨buf, 0, d⟩ |>.flush D).dev = D.received d ++ written ops ↔ NoBoundary buf.length 0 ops := by
  have hG : Gets D (· = ·) := ⟨fun d s => ⟨s, rfl, by rw [(hD d (.write s)).2, hf]; simp [chars]⟩, honest_flush hD⟩
  obtain ⟨chunks, got, h1, h2, h3⟩ := run_sent hG hB d (ops ++ [.flush])
  rw [List.forall₂_eq_eq_eq] at h2
  subst h2
  rw [h1] at h3
  simp only [List.foldl_append, List.foldl_cons, List.foldl_nil, Over.step, Writer.step] at h3
  rw [h3, List.append_cancel_left_eq]
  have := writer_iff ops (Writer.fresh buf) (by simpa [Writer.fresh] using List.length_pos_iff.mpr hB)
  simp only [Writer.fresh, List.take_zero, List.nil_append] at this
  exact this

theorem over_keep (o : Over δ) (h : o.ptr < o.buf.length) (op : WOp) : (o.step D op).ptr < (o.step D op).buf.length := by
  have hG : Gets (⟨D.call, fun _ => []⟩ : Dev δ) (fun g _ => g = []) := ⟨fun _ _ => ⟨[], rfl, rfl⟩, fun _ => rfl⟩
  have hs := sim_step hG (r := []) (o := o) (w := ⟨o.buf, o.ptr, []⟩) ⟨rfl, rfl, [], [], rfl, .nil, rfl⟩ op
  have := writer_keep ⟨o.buf, o.ptr, []⟩ h op
  rw [← hs.buf, ← hs.ptr] at this
  exact this

theorem over_takes : TextTree.Takes (overPort D) (fun o => o.ptr < o.buf.length) where
  keep := fun op h => ⟨true, _, rfl, over_keep _ h op⟩
  empty := by
    rintro ⟨buf, ptr, dev⟩ h
    have h : ptr < buf.length := h
    have : 0 < buf.length - ptr := by omega
    simp [overPort, Over.step, Over.write, this]

open Actl.TextTree in
/-- **C148** (negation) Writing a structured value through a buffer always reports success, whatever the device behind it does. -/
theorem over_success {c : Cfg} (hb : 2 ≤ c.num.base ∧ c.num.base ≤ 36) {t : Ty} {x : Val t} (hv : Valid t x) {buf : List Byte} (hB : buf ≠ []) (d : δ) :
    ∃ o, writeDev (overPort D) c t x ⟨⟨buf, 0, d⟩, false⟩ = some (true, ⟨o, true⟩) := by
  obtain ⟨ok, o, b, g1, g2, g3⟩ := write_sent (c := c) hb (over_takes (D := D)) t x hv (d := ⟨buf, 0, d⟩) (List.length_pos_iff.mpr hB) false
  have : ∀ (ss : List WOp) (o : Over δ), ∃ o', sendCalls (overPort D) ss o = some (true, o') := by
    intro ss
    induction ss with
    | nil => exact fun o => ⟨o, rfl⟩
    | cons s ss ih => intro o; obtain ⟨o', h⟩ := ih (o.step D s); exact ⟨o', by simp [sendCalls, overPort] at h ⊢; exact h⟩
  obtain ⟨o', h⟩ := this (spans c false (tokens t x)) ⟨buf, 0, d⟩
  rw [g2] at h
  simp only [Option.some.injEq, Prod.mk.injEq] at h
  obtain ⟨rfl, rfl⟩ := h
  exact ⟨o, by rw [g1, g3 rfl]⟩

/-- **C148** (negation) A device that fails once and then recovers is left with a gap: of a string at least as long as the buffer everything arrives but the first
characters, as many as the buffer has. -/
theorem over_gap {buf s : List Byte} (hB : buf ≠ []) (hs : buf.length ≤ s.length) :
    flaky.received (((⟨buf, 0, ([0], [])⟩ : Over _).write flaky s).flush flaky).dev = s.drop buf.length := by
  have hp : 0 < buf.length := List.length_pos_iff.mpr hB
  have h1 : ¬ s.length < buf.length := by omega
  have hm := Nat.mod_lt (s.length - buf.length) hp
  have hml := Nat.mod_le (s.length - buf.length) buf.length
  obtain ⟨rest, hrest⟩ : ∃ rest, rest = s.drop buf.length := ⟨_, rfl⟩
  have hl : s.length - buf.length = rest.length := by rw [hrest, List.length_drop]
  simp only [Over.write, Nat.sub_zero, h1, if_false, List.take_zero, List.nil_append, Over.send, flaky, chars]
  rw [← hrest]
  simp only [hl]
  rw [hl] at hm hml
  by_cases h2 : rest.length % buf.length < rest.length
  · simp only [h2, if_true]
    split
    · simp only [Over.flush, Over.overflow, Over.send, chars, List.append_nil, List.nil_append]
      rw [List.take_left' (by simp; omega),
        List.take_of_length_le (l := rest.drop _) (by simp; omega), List.take_append_drop]
    · rename_i h3
      simp only [Over.flush, Over.overflow, Over.send, chars, List.append_nil, List.nil_append, List.take_zero]
      exact List.take_of_length_le (by omega)
  · simp only [h2, if_false]
    split
    · simp only [Over.flush, Over.overflow, Over.send, chars, List.append_nil, List.nil_append]
      rw [List.take_left' (by simp; omega), List.take_of_length_le (by omega)]
    · rename_i h3
      simp only [Over.flush, Over.overflow, Over.send, chars, List.append_nil, List.take_zero]
      exact (List.length_eq_zero_iff.mp (by omega)).symm

/-! A buffer of four characters: the device takes one of the first chunk and then everything; success is reported. -/

open Actl.TextTree in
example : (writeDev (overPort flaky) exCfg (.tuple (.cons .str (.cons .str .nil))) (bytes "abcdef", (bytes "xyz", ()))
    ⟨⟨bytes "....", 0, ([1], [])⟩, false⟩).map (fun p => (p.1, (p.2.dev.flush flaky).dev.2)) = some (true, bytes "aef xyz") := by decide +kernel

example : flaky.received (((⟨bytes "....", 0, ([0], [])⟩ : Over _).write flaky (bytes "abcdefghij")).flush flaky).dev = bytes "efghij" :=
  over_gap (by decide) (by decide)

/-- A device that never fails. -/
def steady : Dev (List Byte) := ⟨fun d op => ((chars op).length, d ++ chars op), id⟩

theorem steady_honest : steady.Honest := fun d op => ⟨Nat.le_refl _, by simp [steady]⟩

example : steady.received (([.write (bytes "ab"), .put (lit 'c'), .write (bytes "defgh")].foldl (Over.step steady)
    ⟨bytes "...", 0, []⟩).flush steady).dev = [] ++ bytes "abcdefgh" :=
  (over_full steady_honest (fun _ _ => rfl) (by decide) [] _).mpr (by simp [NoBoundary, bytes])

end Actl.Failing
