import Verif.Spec.FileDevice
import Mathlib.Tactic.IntervalCases

/-!
# C99: file devices
-/

namespace Actl.FileDevice

open Actl.Text

/-! ### Opening -/

/-- Every mode opens an existing file for exactly the directions it names. -/
theorem open_directions {mode : Nat} (h : 2 ≤ mode ∧ mode < 16) (s : List Byte) :
    ∃ f, openFile mode (some s) = some f ∧ f.readable = isIn mode ∧ f.writable = (isOut mode || isApp mode) ∧
      f.pos = 0 ∧ f.eof = false ∧ f.last = .nothing := by
  obtain ⟨h1, h2⟩ := h
  interval_cases mode <;> exact ⟨_, rfl, rfl, rfl, rfl, rfl, rfl⟩

/-- Input alone keeps the contents and needs the file to exist; output alone starts with an empty file; `app` without
both of them or with one of them keeps the contents and appends. -/
theorem open_contents {mode : Nat} (h : 2 ≤ mode ∧ mode < 16) (e : Option (List Byte)) :
    (isOut mode = false → isApp mode = false → (openFile mode e).map (·.data) = e) ∧
    (isIn mode = false → isApp mode = false → (openFile mode e).map (·.data) = some []) ∧
    (isApp mode = true → ¬ (isIn mode = true ∧ isOut mode = true) →
      (openFile mode e).map (fun f => (f.data, f.append)) = some (e.getD [], true)) := by
  obtain ⟨h1, h2⟩ := h
  interval_cases mode <;> refine ⟨?_, ?_, ?_⟩ <;> intro a b <;>
    first
    | exact absurd a (by decide)
    | exact absurd b (by decide)
    | (cases e <;> rfl)

/-- `in | out` empties an existing file … -/
theorem open_in_out_fails {mode : Nat} (hm : mode = 6 ∨ mode = 7) (s : List Byte) :
    (openFile mode (some s)).map (·.data) = some [] := by
  rcases hm with rfl | rfl <;> rfl

/-- … and `trunc` does not; it even needs the file to exist. -/
theorem open_trunc_fails {mode : Nat} (hm : mode = 14 ∨ mode = 15) (s : List Byte) :
    (openFile mode (some s)).map (fun f => (f.data, f.append)) = some (s, false) ∧ openFile mode none = none := by
  rcases hm with rfl | rfl <;> exact ⟨rfl, rfl⟩

example : (openFile 6 (some (bytes "data"))).map (·.data) = some [] := by decide +kernel
example : (openFile 14 (some (bytes "data"))).map (·.data) = some (bytes "data") := by decide +kernel

/-! ### Reading -/

/-- A stream that is ready for input. -/
structure Readable (f : Stream) : Prop where
  readable : f.readable = true
  last : f.last ≠ .write
  pos : f.pos ≤ f.data.length
  eof : f.eof = true → f.pos = f.data.length

theorem open_readable {mode : Nat} (h : 2 ≤ mode ∧ mode < 16) {s : List Byte} {f : Stream}
    (hf : openFile mode (some s) = some f) (hin : isIn mode = true) : Readable f := by
  obtain ⟨g, hg, h1, -, h2, h3, h4⟩ := open_directions h s
  rw [hf] at hg
  injection hg with hg
  subst hg
  exact ⟨h1.trans hin, by simp [h4], by omega, by simp [h3]⟩

theorem get_eq {f : Stream} (h : Readable f) :
    get f = some ((f.data.drop f.pos).headD 0, { f with
      pos := min (f.pos + 1) f.data.length, eof := decide (f.data.length < f.pos + 1), last := .read }) := by
  obtain ⟨h1, h2, h3, h4⟩ := h
  unfold get fgetc
  rw [if_neg (by simp [h1, h2])]
  rcases f with ⟨d, p, e, r, w, a, l⟩
  simp only at h1 h2 h3 h4 ⊢
  by_cases hp : p < d.length
  · have he : e = false := by
      cases e
      · rfl
      · have := h4 rfl; omega
    rw [he, List.getElem?_eq_getElem hp, List.drop_eq_getElem_cons hp, min_eq_left (by omega),
      decide_eq_false (by omega)]
    rfl
  · obtain rfl : p = d.length := by omega
    cases e <;> simp

theorem read_eq {f : Stream} (h : Readable f) (n : Nat) :
    read n f = some ((f.data.drop f.pos).take n, { f with
      pos := min (f.pos + n) f.data.length, eof := f.eof && n == 0 || decide (f.data.length < f.pos + n),
      last := .read }) := by
  obtain ⟨h1, h2, h3, h4⟩ := h
  unfold read fread
  rw [if_neg (by simp [h1, h2])]
  by_cases he : f.eof = true
  · have hp := h4 he
    by_cases hn : n = 0
    · simp [he, hp, hn]
    · simp [he, hp, hn]; omega
  · by_cases hn : n = 0
    · simp [hn, he]
      omega
    · simp [he, hn]
      omega

/-- `get` and `read` in any order deliver the characters of the file one after another, without gaps and repetitions,
and then zeros and nothing; `eof` tells whether more characters were asked for than there are. -/
theorem run_in_order {f : Stream} (h : Readable f) (he : f.eof = false) (ops : List Input) :
    ∃ g, run ops f = some (expected (f.data.drop f.pos) ops, g) ∧ Readable g ∧ g.data = f.data ∧
      g.pos = min (f.pos + (ops.map Input.wants).sum) f.data.length ∧
      eof g = decide (f.data.length < f.pos + (ops.map Input.wants).sum) := by
  suffices H : ∀ (ops : List Input) (f : Stream), Readable f → ∃ g, run ops f =
      some (expected (f.data.drop f.pos) ops, g) ∧ Readable g ∧ g.data = f.data ∧
      g.pos = min (f.pos + (ops.map Input.wants).sum) f.data.length ∧
      (g.eof = true ↔ f.eof = true ∨ f.data.length < f.pos + (ops.map Input.wants).sum) from by
    obtain ⟨g, h1, h2, h3, h4, h5⟩ := H ops f h
    refine ⟨g, h1, h2, h3, h4, ?_⟩
    rw [eof, Bool.eq_iff_iff, h5]
    simp [he]
  clear h he ops f
  intro ops
  induction ops with
  | nil =>
    intro f h
    refine ⟨f, rfl, h, rfl, ?_, ?_⟩
    · have := h.pos; simp; omega
    · have := h.pos; simp; omega
  | cons op ops ih =>
    intro f h
    obtain ⟨h1, h2, h3, h4⟩ := h
    cases op with
    | get =>
      obtain ⟨g, e1, e2, e3, e4, e5⟩ := ih { f with
        pos := min (f.pos + 1) f.data.length, eof := decide (f.data.length < f.pos + 1), last := .read }
        ⟨h1, by simp, by simp, by simp; omega⟩
      refine ⟨g, ?_, e2, e3, ?_, ?_⟩
      · rw [run, get_eq ⟨h1, h2, h3, h4⟩, Option.bind_some, e1, expected]
        simp only [Option.map_some, List.tail_drop]
        congr 4
        by_cases hp : f.pos + 1 ≤ f.data.length
        · rw [min_eq_left hp]
        · rw [min_eq_right (by omega), List.drop_eq_nil_of_le (le_refl _), List.drop_eq_nil_of_le (by omega)]
      · rw [e4]; simp only [List.map_cons, List.sum_cons, Input.wants]; omega
      · rw [e5]; simp only [List.map_cons, List.sum_cons, Input.wants, decide_eq_true_eq]
        by_cases he : f.eof = true
        · have := h4 he; simp [he]; omega
        · simp [he]; omega
    | read n =>
      obtain ⟨g, e1, e2, e3, e4, e5⟩ := ih { f with
        pos := min (f.pos + n) f.data.length, eof := f.eof && n == 0 || decide (f.data.length < f.pos + n), last := .read }
        ⟨h1, by simp, by simp, by
          simp
          intro h
          rcases h with h | h
          · have := h4 h.1; omega
          · omega⟩
      refine ⟨g, ?_, e2, e3, ?_, ?_⟩
      · rw [run, read_eq ⟨h1, h2, h3, h4⟩, Option.bind_some, e1, expected]
        simp only [Option.map_some, List.drop_drop]
        congr 4
        by_cases hp : f.pos + n ≤ f.data.length
        · rw [min_eq_left hp]
        · rw [min_eq_right (by omega), List.drop_eq_nil_of_le (le_refl _), List.drop_eq_nil_of_le (by omega)]
      · rw [e4]; simp only [List.map_cons, List.sum_cons, Input.wants]; omega
      · rw [e5]; simp only [List.map_cons, List.sum_cons, Input.wants]
        by_cases he : f.eof = true
        · have := h4 he; simp [he]; omega
        · simp [he]; omega

/-- A file of 5 characters. -/
abbrev exFile : Stream := ⟨bytes "ab c ", 0, false, true, false, false, .nothing⟩

theorem exFile_readable : Readable exFile := ⟨rfl, by decide, by decide, by decide⟩

example : run [.get, .read 2, .get, .read 7] exFile =
    some ([bytes "a", bytes "b ", bytes "c", bytes " "], { exFile with pos := 5, eof := true, last := .read }) := by
  decide +kernel

/-! ### Looking ahead -/

theorem fseek_eq {f : Stream} {o : Int} {q : Nat} (h : (f.pos : Int) + o = q) :
    fseek o f = some { f with pos := q, eof := false, last := .nothing } := by
  rw [fseek, if_neg (by omega), h]
  simp

/-- Before the end, `peek` returns the next character and leaves it there. -/
theorem peek_next {f : Stream} (h : Readable f) (hp : f.pos < f.data.length) :
    peek f = some (f.data[f.pos], { f with eof := false, last := .nothing }) := by
  rw [peek, get_eq h, Option.bind_some, move, fseek_eq (q := f.pos) (by simp; omega), List.drop_eq_getElem_cons hp]
  rfl

/-- At the end of a file that is not empty, `peek` returns a zero, but takes the last character back: it is delivered
again by the next input operation, and `eof` is false. -/
theorem peek_end_fails {f : Stream} (h : Readable f) (hp : f.pos = f.data.length) (hne : f.data ≠ []) :
    ∃ g, peek f = some (0, g) ∧ eof g = false ∧ Readable g ∧ g.data = f.data ∧ g.pos + 1 = f.data.length ∧
      (get g).map (·.1) = some (f.data.getLast hne) := by
  have hl : 0 < f.data.length := List.length_pos_iff.mpr hne
  have hg : Readable { f with pos := f.data.length - 1, eof := false, last := .nothing } :=
    ⟨h.readable, by simp, by simp, by simp⟩
  refine ⟨{ f with pos := f.data.length - 1, eof := false, last := .nothing }, ?_, rfl, hg, rfl, by simp; omega, ?_⟩
  · rw [peek, get_eq h, Option.bind_some, move, fseek_eq (q := f.data.length - 1) (by simp; omega)]
    simp [hp]
  · rw [get_eq hg]
    simp only [Option.map_some, Option.some.injEq]
    rw [List.drop_eq_getElem_cons (by omega), List.getLast_eq_getElem]
    rfl

/-- At the end of an empty file `peek` violates an assertion. -/
theorem peek_empty_fails {f : Stream} (h : Readable f) (he : f.data = []) : peek f = none := by
  have := h.pos
  rw [peek, get_eq h]
  simp only [Option.bind_some, move, fseek, he]
  simp

example : (peek { exFile with pos := 5 }).map (fun p => (p.1, p.2.pos)) = some (0, 4) := by decide +kernel

/-! ### Skipping -/

theorem skip_step {p : Byte → Bool} {fuel : Nat} {f : Stream} (h : Readable f) (he : f.eof = false)
    (hp : f.pos < f.data.length) (hc : p f.data[f.pos] = true) :
    skip p (fuel + 1) f = skip p fuel { f with pos := f.pos + 1, eof := false, last := .nothing } := by
  rw [skip, eof, he, peek_next h hp]
  simp only [Bool.false_eq_true, if_false, Option.bind_some, hc, if_true, move]
  rw [fseek_eq (q := f.pos + 1) (by simp)]
  rfl

/-- Skipping stops at the first character that is not to be skipped. -/
theorem skip_stops {p : Byte → Bool} {f : Stream} (h : Readable f) (he : f.eof = false) {k : Nat}
    (hk : f.pos + k < f.data.length) (hs : ∀ i (hi : i < k), p (f.data[f.pos + i]'(by omega)) = true)
    (hc : p f.data[f.pos + k] = false) {fuel : Nat} (hf : k < fuel) :
    skip p fuel f = some { f with pos := f.pos + k, eof := false, last := .nothing } := by
  induction k generalizing f fuel with
  | zero =>
    obtain ⟨fuel, rfl⟩ : ∃ m, fuel = m + 1 := ⟨fuel - 1, by omega⟩
    simp only [Nat.add_zero] at hc hk
    rw [skip, eof, he, peek_next h hk]
    simp [hc]
  | succ k ih =>
    obtain ⟨fuel, rfl⟩ : ∃ m, fuel = m + 1 := ⟨fuel - 1, by omega⟩
    rw [skip_step h he (by omega) (hs 0 (by omega))]
    rw [ih (f := { f with pos := f.pos + 1, eof := false, last := .nothing })
      ⟨h.readable, by simp, by simp; omega, by simp⟩ rfl (by simp; omega)
      (fun i hi => by have := hs (i + 1) (by omega); simpa [Nat.add_assoc, Nat.add_comm 1] using this)
      (by simpa [Nat.add_assoc, Nat.add_comm 1] using hc) (by omega)]
    simp; omega

/-- If all characters up to the end of the file are to be skipped (and zeros are not), the last one is left: skipping
white space at the end of a file never gets there. -/
theorem skip_end_fails {p : Byte → Bool} (h0 : p 0 = false) {f : Stream} (h : Readable f) (he : f.eof = false)
    (hne : f.data ≠ []) (hs : ∀ c ∈ f.data.drop f.pos, p c = true) {fuel : Nat} (hf : f.data.length - f.pos < fuel) :
    skip p fuel f = some { f with pos := f.data.length - 1, eof := false, last := .nothing } := by
  generalize hk : f.data.length - f.pos = k at *
  have hl : 0 < f.data.length := List.length_pos_iff.mpr hne
  induction k generalizing f fuel with
  | zero =>
    obtain ⟨fuel, rfl⟩ : ∃ m, fuel = m + 1 := ⟨fuel - 1, by omega⟩
    have hp : f.pos = f.data.length := by have := h.pos; omega
    rw [skip, eof, he, peek, get_eq h, Option.bind_some, move, fseek_eq (q := f.data.length - 1) (by simp; omega)]
    have h0' : p 0#8 = false := h0
    simp [hp, h0']
  | succ k ih =>
    obtain ⟨fuel, rfl⟩ : ∃ m, fuel = m + 1 := ⟨fuel - 1, by omega⟩
    have hp : f.pos < f.data.length := by omega
    have hd := List.drop_eq_getElem_cons hp
    rw [skip_step h he hp (hs _ (hd ▸ List.mem_cons_self))]
    rw [ih (f := { f with pos := f.pos + 1, eof := false, last := .nothing })
      ⟨h.readable, by simp, by simp; omega, by simp⟩ rfl hne
      (fun c hc => hs c (by rw [hd]; exact List.mem_cons_of_mem _ hc)) (by show f.data.length - (f.pos + 1) = k; omega)
      (by omega) hl]

example : skip isSpace 9 { exFile with pos := 4 } = some { exFile with pos := 4 } := by decide +kernel

/-- If zeros are to be skipped as well, skipping at the end of a file never returns. -/
theorem skip_zero_diverges {p : Byte → Bool} (h0 : p 0 = true) {f : Stream} (h : Readable f) (he : f.eof = false)
    (hs : ∀ c ∈ f.data.drop f.pos, p c = true) (fuel : Nat) : skip p fuel f = none := by
  induction fuel generalizing f with
  | zero => rfl
  | succ fuel ih =>
    by_cases hp : f.pos < f.data.length
    · have hd := List.drop_eq_getElem_cons hp
      rw [skip_step h he hp (hs _ (hd ▸ List.mem_cons_self))]
      exact ih ⟨h.readable, by simp, by simp; omega, by simp⟩ rfl
        (fun c hc => hs c (by rw [hd]; exact List.mem_cons_of_mem _ hc))
    · have hp' : f.pos = f.data.length := by have := h.pos; omega
      by_cases hne : f.data = []
      · rw [skip, eof, he, peek_empty_fails h hne]; rfl
      · have hl : 0 < f.data.length := List.length_pos_iff.mpr hne
        rw [skip, eof, he, peek, get_eq h, Option.bind_some, move,
          fseek_eq (q := f.data.length - 1) (by simp; omega)]
        simp only [hp', List.drop_length, List.headD_nil, Option.map_some, Option.bind_some, h0, if_true,
          Bool.false_eq_true, if_false, move]
        rw [fseek_eq (q := f.data.length) (by simp; omega)]
        simp only [Option.bind_some]
        exact ih ⟨h.readable, by simp, by simp, by simp⟩ rfl (by simp)

/-! ### Writing -/

/-- Everything written to a file opened for output alone is in the file, in order, and nothing else. -/
theorem write_out {mode : Nat} (hm : mode = 4 ∨ mode = 5) (e : Option (List Byte)) (pieces : List (List Byte)) :
    ((openFile mode e).bind (writeAll pieces)).map (·.data) = some pieces.flatten := by
  have H : ∀ (pieces : List (List Byte)) (s : List Byte) (l : Last), l ≠ .read →
      (writeAll pieces ⟨s, s.length, false, false, true, false, l⟩).map (·.data) = some (s ++ pieces.flatten) := by
    intro pieces
    induction pieces with
    | nil => intro s l _; simp [writeAll]
    | cons a as ih =>
      intro s l hl
      have : write a ⟨s, s.length, false, false, true, false, l⟩ =
          some ⟨s ++ a, (s ++ a).length, false, false, true, false, .write⟩ := by
        simp [write, fwrite, hl]
      rw [writeAll, this, Option.bind_some, ih _ _ (by decide)]
      simp
  rcases hm with rfl | rfl <;> exact H pieces [] .nothing (by decide)

/-- With `app` it follows what was in the file before. -/
theorem write_app {mode : Nat} (hm : 2 ≤ mode ∧ mode < 16) (ha : isApp mode = true)
    (hio : ¬ (isIn mode = true ∧ isOut mode = true)) (e : Option (List Byte)) (pieces : List (List Byte)) :
    ((openFile mode e).bind (writeAll pieces)).map (·.data) = some (e.getD [] ++ pieces.flatten) := by
  have H : ∀ (pieces : List (List Byte)) (s : List Byte) (n : Nat) (b : Bool) (l : Last), l ≠ .read →
      (writeAll pieces ⟨s, n, false, b, true, true, l⟩).map (·.data) = some (s ++ pieces.flatten) := by
    intro pieces
    induction pieces with
    | nil => intro s n b l _; simp [writeAll]
    | cons a as ih =>
      intro s n b l hl
      have : write a ⟨s, n, false, b, true, true, l⟩ =
          some ⟨s ++ a, s.length + a.length, false, b, true, true, .write⟩ := by
        simp [write, fwrite, hl]
      rw [writeAll, this, Option.bind_some, ih _ _ _ _ (by decide)]
      simp
  obtain ⟨h1, h2⟩ := hm
  interval_cases mode <;>
    first
    | exact absurd ha (by decide)
    | exact absurd ⟨rfl, rfl⟩ hio
    | exact H pieces _ 0 _ .nothing (by decide)

/-- What was written into a file opened for both directions is read back after moving back. -/
theorem write_read_back {f g : Stream} (hr : f.readable = true) (ha : f.append = false) {s : List Byte}
    (h : write s f = some g) :
    ((move (-(s.length : Int)) g).bind (read s.length)).map (·.1) = some s := by
  unfold write fwrite at h
  split at h
  · simp at h
  · rw [ha] at h
    simp only [Bool.false_eq_true, if_false, Option.some.injEq] at h
    subst h
    simp only [move, fseek]
    rw [if_neg (by simp)]
    simp only [Option.bind_some, read, fread, hr]
    simp only [reduceCtorEq, Bool.true_eq_false, or_self, if_false, Bool.false_eq_true, false_or]
    by_cases hs : s.length = 0
    · simp [List.eq_nil_of_length_eq_zero hs]
    · rw [if_neg hs]
      simp only [Option.map_some, Option.some.injEq]
      rw [show ((f.pos + s.length : Nat) + -(s.length : Int)).toNat = f.pos by omega]
      have hlen : (f.data.take f.pos ++ List.replicate (f.pos - f.data.length) (0 : Byte)).length = f.pos := by
        simp; omega
      rw [List.append_assoc, List.drop_append_of_le_length (by omega), List.drop_eq_nil_of_le (by omega)]
      simp

example : (((openFile 6 none).bind (write (bytes "xyz"))).bind fun g =>
    ((move (-3) g).bind (read 3)).map (·.1)) = some (bytes "xyz") := by decide +kernel

/-- Output directly after a character was read, and input directly after output, are undefined: the device does nothing
about it. -/
theorem direction_change_ub {f : Stream} :
    (∀ c g, get f = some (c, g) → eof g = false → ∀ s, write s g = none) ∧
    (∀ s g, write s f = some g → get g = none ∧ (∀ n, read n g = none) ∧ peek g = none) := by
  constructor
  · intro c g h he s
    have hl : g.last = .read := by
      unfold get fgetc at h
      split at h
      · simp at h
      · split at h
        · simp at h; rw [← h.2]
        · split at h <;> (simp at h; rw [← h.2])
    have he' : g.eof = false := he
    unfold write fwrite
    rw [if_pos (.inr ⟨hl, he'⟩)]
  · intro s g h
    have hl : g.last = .write := by
      unfold write fwrite at h
      split at h
      · simp at h
      · split at h <;> (simp at h; rw [← h])
    have hg : get g = none := by unfold get fgetc; rw [if_pos (.inr hl)]; rfl
    refine ⟨hg, fun n => ?_, ?_⟩
    · unfold read fread; rw [if_pos (.inr hl)]
    · rw [peek, hg]; rfl

end Actl.FileDevice
