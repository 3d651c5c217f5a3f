import Verif.Model.Manipulators
import Verif.Props.Bits

/-!
C88: manipulators among the arguments of `write` and `read` change the settings they name, for the values
that follow them.
-/

namespace Actl.Manipulators

open Actl.Bits

/-- Settings of a text format: the flags and the base. -/
abbrev Settings := (Flag → Bool) × Nat

/-- What a manipulator is meant to do to the settings; a base manipulator sets the base. -/
def meaning : Man → Settings → Settings
  | .flags m, s => (m.spec s.1, s.2)
  | .base b, s => (s.1, b)
  | .level _, s => s

/-- The settings each value is meant to be written with: those of the manipulators before it.  Nothing is
written after a failure. -/
def wanted (s : Settings) : List Arg → List Settings
  | [] => []
  | .man m :: args => wanted (meaning m s) args
  | .value ok :: args => s :: if ok then wanted s args else []

/-- The settings of a text format, `none` for other formats. -/
def settings : Fmt → Option Settings
  | .text fl b _ => some (getf fl, b)
  | _ => none

/-- Manipulators the library offers. -/
def Arg.Ok : Arg → Prop
  | .man (.flags m) => m.Ok
  | _ => True

theorem getf_manipulate (fl : FlagT) (m : Bits.Manip) (h : m.Ok) :
    getf (Bits.manipulate fl m) = m.spec (getf fl) := by
  have := flags_refine [m] (by simpa using h) fl
  simpa using this

theorem wanted_base (fs : Flag → Bool) (b b' c : Nat) : ∀ args,
    (wanted (fs, b) args).map (fun s => (s.1, c)) = (wanted (fs, b') args).map (fun s => (s.1, c)) := by
  intro args
  induction args generalizing fs b b' with
  | nil => rfl
  | cons a args ih =>
    cases a with
    | value ok => cases ok <;> simp [wanted, ih fs b b']
    | man m => cases m <;> simp only [wanted, meaning] <;> exact ih _ _ _

/-- All arguments, in any order and number: `write` with a text format always compiles, each value is
written with the flags meant by the manipulators before it, and with the base the format had before the
call, whatever base manipulators there are. -/
theorem run_text (fl : FlagT) (b p : Nat) (args : List Arg) (hok : ∀ a ∈ args, a.Ok) :
    ∃ fl' seen ok, run (.text fl b p) args = some (.text fl' b p, seen, ok) ∧
      seen.map settings = (wanted (getf fl, b) args).map (fun s => some (s.1, b)) ∧
      (ok = true ↔ Arg.value false ∉ args) := by
  induction args generalizing fl with
  | nil => exact ⟨fl, [], true, rfl, rfl, by simp⟩
  | cons a args ih =>
    have hok' : ∀ a ∈ args, a.Ok := fun a h => hok a (by simp [h])
    cases a with
    | value v =>
      obtain ⟨fl', seen, ok, h1, h2, h3⟩ := ih fl hok'
      cases v with
      | true =>
        refine ⟨fl', .text fl b p :: seen, ok, by simp [run, h1], ?_, by simpa using h3⟩
        simp [wanted, settings, h2]
      | false => exact ⟨fl, [.text fl b p], false, by simp [run, h1], by simp [wanted, settings], by simp⟩
    | man m =>
      cases m with
      | flags m =>
        obtain ⟨fl', seen, ok, h1, h2, h3⟩ := ih (Bits.manipulate fl m) hok'
        refine ⟨fl', seen, ok, by simpa [run, manipulate] using h1, ?_, by simpa using h3⟩
        rw [h2, getf_manipulate fl m (hok (.man (.flags m)) (by simp))]
        rfl
      | base c =>
        obtain ⟨fl', seen, ok, h1, h2, h3⟩ := ih fl hok'
        refine ⟨fl', seen, ok, by simpa [run, manipulate] using h1, ?_, by simpa using h3⟩
        rw [h2]
        simp only [wanted, meaning]
        have := congrArg (List.map (some (α := Settings))) (wanted_base (getf fl) b c b args)
        simp only [List.map_map, Function.comp_def] at this
        exact this
      | level d =>
        obtain ⟨fl', seen, ok, h1, h2, h3⟩ := ih fl hok'
        exact ⟨fl', seen, ok, by simpa [run, manipulate] using h1, by simpa [wanted, meaning] using h2,
          by simpa using h3⟩

theorem wanted_const (fs : Flag → Bool) (b : Nat) : ∀ args : List Arg,
    (∀ c, Arg.man (.base c) ∉ args) → ∀ s ∈ wanted (fs, b) args, s.2 = b := by
  intro args
  induction args generalizing fs with
  | nil => simp [wanted]
  | cons a args ih =>
    intro h s hs
    have h' : ∀ c, Arg.man (.base c) ∉ args := fun c hc => h c (by simp [hc])
    cases a with
    | value ok =>
      simp only [wanted, List.mem_cons] at hs
      rcases hs with rfl | hs
      · rfl
      · cases ok
        · simp at hs
        · exact ih fs h' s (by simpa using hs)
    | man m =>
      cases m with
      | flags m => exact ih _ h' s (by simpa [wanted, meaning] using hs)
      | base c => exact absurd (by simp) (h c)
      | level d => exact ih _ h' s (by simpa [wanted, meaning] using hs)

/-- **C88**: without base manipulators each value is written with just the settings meant. -/
theorem write_settings (fl : FlagT) (b p : Nat) (args : List Arg) (hok : ∀ a ∈ args, a.Ok)
    (hb : ∀ c, Arg.man (.base c) ∉ args) :
    ∃ f seen ok, run (.text fl b p) args = some (f, seen, ok) ∧
      seen.map settings = (wanted (getf fl, b) args).map some := by
  obtain ⟨fl', seen, ok, h1, h2, -⟩ := run_text fl b p args hok
  refine ⟨_, seen, ok, h1, ?_⟩
  rw [h2]
  apply List.map_congr_left
  intro s hs
  rw [← wanted_const (getf fl) b args hb s hs]

example : ∃ f seen ok,
    run (.text 0 10 6) [.man (.flags (.set .boolalpha)), .value true, .man (.flags (.group (some .fixed))),
      .man (.flags (.unset .boolalpha)), .value true] = some (f, seen, ok) ∧
      seen.map settings = (wanted (getf 0, 10) [.man (.flags (.set .boolalpha)), .value true,
        .man (.flags (.group (some .fixed))), .man (.flags (.unset .boolalpha)), .value true]).map some :=
  write_settings 0 10 6 _ (by simp [Arg.Ok, Bits.Manip.Ok, Flag.isFloat]) (by simp)

/-- The base manipulators are ignored: whatever is written after one is written with the same settings as
before, for every format in which the call compiles. -/
theorem base_ignored (f : Fmt) (b : Nat) : manipulate f (.base b) = some f := by
  induction f with
  | composed x y hx hy => simp [manipulate, hx, hy]
  | _ => rfl

/-- `write(od, text, hex, x)` writes `x` in the old base, for every base other than the old one. -/
theorem base_ignored_fails (fl : FlagT) (b c p : Nat) (h : c ≠ b) :
    ∃ f seen ok, run (.text fl b p) [.man (.base c), .value true] = some (f, seen, ok) ∧
      seen.map settings = [some (getf fl, b)] ∧
      seen.map settings ≠ (wanted (getf fl, b) [.man (.base c), .value true]).map some := by
  refine ⟨.text fl b p, [.text fl b p], true, rfl, rfl, ?_⟩
  simp [settings, wanted, meaning, h.symm]

example : ∃ f seen ok, run (.text 0 10 6) [.man (.base 16), .value true] = some (f, seen, ok) ∧
    seen.map settings = [some (getf 0, 10)] ∧
    seen.map settings ≠ (wanted (getf 0, 10) [.man (.base 16), .value true]).map some :=
  base_ignored_fails 0 10 16 6 (by decide)

/-- Flag manipulators do not compile with any format but a plain `text`: neither with composed formats,
one of which may be `text`, nor with the format of a text device by default, `text_static`. -/
theorem flags_compile_fails (f : Fmt) (m : Bits.Manip) :
    manipulate f (.flags m) = none ↔ ∀ fl b p, f ≠ .text fl b p := by
  cases f <;> simp [manipulate]

example : run (.composed (.text 0 10 6) (.spaced false)) [.man (.flags (.set .boolalpha)), .value true] = none :=
  rfl

/-! ### Settings stay between the calls to a formatted device -/

theorem run_append (f : Fmt) (a b : List Arg) (ha : Arg.value false ∉ a) :
    run f (a ++ b) = (run f a).bind fun r => (run r.1 b).map fun s => (s.1, r.2.1 ++ s.2.1, s.2.2) := by
  induction a generalizing f with
  | nil => cases h : run f b <;> simp [run, h]
  | cons x a ih =>
    have ha' : Arg.value false ∉ a := fun h => ha (by simp [h])
    cases x with
    | man m =>
      simp only [List.cons_append, run]
      cases hm : manipulate f m with
      | none => rfl
      | some g => simp only [Option.bind_some]; exact ih g ha'
    | value v =>
      cases v with
      | false => simp at ha
      | true =>
        simp only [List.cons_append, run, if_true, ih f ha']
        cases run f a with
        | none => rfl
        | some r => cases h : run r.1 b <;> simp [h]

/-- Calls to a formatted device that succeed have the same effect as one call with all the arguments. -/
theorem calls_flatten (f : Fmt) (cs : List (List Arg)) (h : ∀ c ∈ cs, Arg.value false ∉ c) :
    calls f cs = (run f cs.flatten).map fun r => (r.1, r.2.1) := by
  induction cs generalizing f with
  | nil => rfl
  | cons c cs ih =>
    rw [List.flatten_cons, run_append f c _ (h c (by simp)), calls]
    cases run f c with
    | none => rfl
    | some r =>
      simp only [Option.bind_some]
      rw [ih r.1 (fun c hc => h c (by simp [hc]))]
      cases run r.1 cs.flatten <;> rfl

/-- Each value written by any of the calls is written with the settings meant by all manipulators before
it, also those of earlier calls. -/
theorem calls_settings (fl : FlagT) (b p : Nat) (cs : List (List Arg)) (hok : ∀ c ∈ cs, ∀ a ∈ c, a.Ok)
    (h : ∀ c ∈ cs, Arg.value false ∉ c) (hb : ∀ c ∈ cs, ∀ d, Arg.man (.base d) ∉ c) :
    ∃ f seen, calls (.text fl b p) cs = some (f, seen) ∧
      seen.map settings = (wanted (getf fl, b) cs.flatten).map some := by
  obtain ⟨f, seen, ok, h1, h2⟩ := write_settings fl b p cs.flatten
    (fun a ha => by
      obtain ⟨c, hc, hac⟩ := List.mem_flatten.1 ha
      exact hok c hc a hac)
    (fun d hd => by
      obtain ⟨c, hc, hac⟩ := List.mem_flatten.1 hd
      exact hb c hc d hac)
  exact ⟨f, seen, by rw [calls_flatten _ _ h, h1]; rfl, h2⟩

example : ∃ f seen, calls (.text 0 10 6) [[.man (.flags (.set .showpos)), .value true], [.value true]] =
    some (f, seen) ∧ seen.map settings = (wanted (getf 0, 10)
      [.man (.flags (.set .showpos)), .value true, .value true]).map some :=
  calls_settings 0 10 6 [[.man (.flags (.set .showpos)), .value true], [.value true]]
    (by simp [Arg.Ok, Bits.Manip.Ok]) (by simp) (by simp)

/-! ### Levels -/

/-- The simple formats a format is composed of, in order. -/
def parts : Fmt → List Fmt
  | .composed a b => parts a ++ parts b
  | f => [f]

/-- What a change of level does to a simple format. -/
def levelPart (deeper : Bool) : Fmt → Fmt
  | .spaced _ => .spaced (!deeper)
  | .indented l i => .indented (if deeper then l + 1 else l - 1) (i || deeper)
  | f => f

/-- A change of level reaches every part of a composed format. -/
theorem level_parts (f : Fmt) (d : Bool) :
    ∃ g, manipulate f (.level d) = some g ∧ parts g = (parts f).map (levelPart d) := by
  induction f with
  | composed a b ha hb =>
    obtain ⟨a', ha1, ha2⟩ := ha
    obtain ⟨b', hb1, hb2⟩ := hb
    exact ⟨.composed a' b', by simp [manipulate, ha1, hb1], by simp [parts, ha2, hb2]⟩
  | _ => exact ⟨_, rfl, rfl⟩

/-- The levels of indentation of the parts of a format. -/
def levels (f : Fmt) : List (Option (BitVec 64)) :=
  (parts f).map fun
    | .indented l _ => some l
    | _ => none

/-- A guarded scope leaves every level of indentation as it was, if the code in it does. -/
theorem guarded_levels (f g : Fmt) (body : Fmt → Option Fmt)
    (hb : ∀ x y, body x = some y → levels y = levels x) (h : guarded f body = some g) :
    levels g = levels f := by
  obtain ⟨f1, e1, p1⟩ := level_parts f true
  rw [guarded, e1, Option.bind_some] at h
  cases hf2 : body f1 with
  | none => simp [hf2] at h
  | some f2 =>
    obtain ⟨f3, e3, p3⟩ := level_parts f2 false
    rw [hf2, Option.bind_some, e3, Option.some.injEq] at h
    subst h
    have h2 := hb f1 f2 hf2
    have l1 : levels f1 = (levels f).map (·.map (· + 1)) := by
      unfold levels
      rw [p1, List.map_map, List.map_map]
      apply List.map_congr_left
      intro x _
      cases x <;> rfl
    have l3 : levels f3 = (levels f2).map (·.map (· - 1)) := by
      unfold levels
      rw [p3, List.map_map, List.map_map]
      apply List.map_congr_left
      intro x _
      cases x <;> rfl
    rw [l3, h2, l1, List.map_map]
    conv_rhs => rw [← List.map_id (levels f)]
    apply List.map_congr_left
    intro x _
    cases x with
    | none => rfl
    | some l => simp [BitVec.add_sub_cancel]

example : ∃ g, guarded (.composed (.indented 3 false) (.composed (.spaced true) (.text 0 10 6)))
    (fun f => guarded f some) = some g ∧ levels g = [some 3, none, none] := ⟨_, rfl, by decide⟩

end Actl.Manipulators
