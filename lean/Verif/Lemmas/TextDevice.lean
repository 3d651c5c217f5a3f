import Verif.Model.TextDevice
import Verif.Lemmas.TextTree
import Verif.Props.BufferedParse
import Verif.Props.Till

/-! Reading from a device is reading from its unread characters. -/

namespace Actl.TextTree

open Actl.Text

variable {δ : Type} {D : Dev δ} {R : δ → List Byte → Prop} {N : Nat}

/-- The device gives its unread characters in order: `R d s` says that `s` is what the device has not delivered yet. -/
structure Faithful (D : Dev δ) (R : δ → List Byte → Prop) : Prop where
  buffer : ∀ {d s}, R d s → ∃ p q, D.buffer d = some p ∧ s = p ++ q ∧ (p = [] → s = [])
  move : ∀ {d s p n}, R d s → D.buffer d = some p → n ≤ p.length → ∃ d', D.move n d = some d' ∧ R d' (s.drop n)
  peek : ∀ {d s}, R d s → D.peek d = some (s.headD 0#8)
  eof : ∀ {d s}, R d s → D.eof d = false
  get : ∀ {d x s}, R d (x :: s) → ∃ d', D.get d = some (x, d') ∧ R d' s
  last : ∀ {d}, R d [] → ∃ d', D.get d = some (0#8, d') ∧ D.eof d' = true

theorem drive_eq (hF : Faithful D R) {σ : Type} {inv : σ → Prop} {parse : σ → List Byte → Option (Nat × σ)}
    (h : Parser.StepLaw inv parse) : ∀ (fuel : Nat) (st : σ) (d : δ) (s : List Byte), inv st → R d s → s.length < fuel →
      ∃ chunks n st' d', (∀ x ∈ chunks, x ≠ []) ∧ chunks.flatten = s ∧ Parser.exec parse st chunks = some (n, st') ∧
        drive D parse fuel st d = some (st', d') ∧ R d' (s.drop n) := by
  intro fuel
  induction fuel with
  | zero => intro _ _ _ _ _ hl; omega
  | succ fuel ih =>
    intro st d s hi hr hl
    obtain ⟨p, q, hb, hs, hp⟩ := hF.buffer hr
    by_cases hpe : p = []
    · have := hp hpe
      subst this
      refine ⟨[], 0, st, d, by simp, rfl, rfl, ?_, by simpa using hr⟩
      simp [drive, hb, hpe]
    · have hne : p.isEmpty = false := by simpa using hpe
      obtain ⟨n, st', hps, hn, hi'⟩ := Buffered.stepLaw_bound h p st hi hpe
      obtain ⟨d', hm, hr'⟩ := hF.move hr hb hn
      have hpl := List.length_pos_iff.mpr hpe
      by_cases hfull : n = p.length
      · have hd : s.drop n = q := by rw [hs, hfull, List.drop_left]
        rw [hd] at hr'
        have hql : q.length < fuel := by
          have := congrArg List.length hs
          simp only [List.length_append] at this
          omega
        obtain ⟨chunks, m, st'', d'', c1, c2, c3, c4, c5⟩ := ih st' d' q hi' hr' hql
        refine ⟨p :: chunks, n + m, st'', d'', ?_, ?_, ?_, ?_, ?_⟩
        · intro x hx
          rcases List.mem_cons.mp hx with rfl | hx
          · exact hpe
          · exact c1 x hx
        · rw [List.flatten_cons, c2, hs]
        · rw [Parser.exec]
          simp only [hne, Bool.false_eq_true, if_false, hps]
          rw [if_pos hfull, c3]
        · simp only [drive, hb, Option.bind_some, hne, Bool.false_eq_true, if_false, hps, hm]
          rw [if_pos hfull, c4]
        · rw [← List.drop_drop, hd]; exact c5
      · refine ⟨p :: (if q = [] then [] else [q]), n, st', d', ?_, ?_, ?_, ?_, hr'⟩
        · intro x hx
          rcases List.mem_cons.mp hx with rfl | hx
          · exact hpe
          · split at hx
            · simp at hx
            · simp only [List.mem_singleton] at hx; subst hx; assumption
        · rw [List.flatten_cons, hs]
          split
          · rename_i h0; simp [h0]
          · simp
        · rw [Parser.exec]
          simp only [hne, Bool.false_eq_true, if_false, hps]
          rw [if_neg hfull]
        · simp only [drive, hb, Option.bind_some, hne, Bool.false_eq_true, if_false, hps, hm]
          rw [if_neg hfull]

theorem exec_buffers {σ : Type} {inv : σ → Prop} {parse : σ → List Byte → Option (Nat × σ)}
    (h : Parser.StepLaw inv parse) {chunks : List (List Byte)} (hne : ∀ x ∈ chunks, x ≠ []) {st : σ} (hi : inv st) :
    Parser.exec parse st (buffers chunks.flatten) = Parser.exec parse st chunks := by
  unfold buffers
  by_cases hf : chunks.flatten = []
  · rw [if_pos hf]
    have : chunks = [] := by
      cases chunks with
      | nil => rfl
      | cons a l =>
        have := hne a (by simp)
        simp at hf
        exact absurd hf.1 this
    rw [this]
  · rw [if_neg hf, Parser.exec_join h chunks hne hf st hi, Parser.exec_single _ _ _ hf]

/-- The driver on the device and on the unread characters in one piece. -/
theorem drive_buffers (hF : Faithful D R) {σ : Type} {inv : σ → Prop} {parse : σ → List Byte → Option (Nat × σ)}
    (h : Parser.StepLaw inv parse) {st : σ} {d : δ} {s : List Byte} (hi : inv st) (hr : R d s) (hl : s.length < N) :
    ∃ n st' d', Parser.exec parse st (buffers s) = some (n, st') ∧ drive D parse N st d = some (st', d') ∧
      R d' (s.drop n) := by
  obtain ⟨chunks, n, st', d', c1, c2, c3, c4, c5⟩ := drive_eq hF h N st d s hi hr hl
  refine ⟨n, st', d', ?_, c4, c5⟩
  rw [← c2, exec_buffers h c1 hi, c3]

theorem skip_eq (hF : Faithful D R) {p : Byte → Bool} (h0 : p 0#8 = false) : ∀ (fuel : Nat) (d : δ) (s : List Byte), R d s →
    s.length < fuel → ∃ d', skipDev D p fuel d = some d' ∧ R d' (s.dropWhile p) := by
  intro fuel
  induction fuel with
  | zero => intro _ _ _ hl; omega
  | succ fuel ih =>
    intro d s hr hl
    rw [skipDev, hF.eof hr, hF.peek hr]
    simp only [Bool.false_eq_true, if_false, Option.bind_some]
    cases s with
    | nil => exact ⟨d, by simp [h0], by simpa using hr⟩
    | cons c cs =>
      simp only [List.headD_cons]
      by_cases hc : p c = true
      · obtain ⟨q, u, hb, hs, hq⟩ := hF.buffer hr
        have hqne : q ≠ [] := fun e => by simpa using hq e
        obtain ⟨d', hm, hr'⟩ := hF.move (n := 1) hr hb (List.length_pos_iff.mpr hqne)
        obtain ⟨d'', h1, h2⟩ := ih d' cs (by simpa using hr') (by simp only [List.length_cons] at hl; omega)
        exact ⟨d'', by simp [hc, hm, h1], by simpa [List.dropWhile_cons, hc] using h2⟩
      · exact ⟨d, by simp [hc], by simpa [List.dropWhile_cons, hc] using hr⟩

theorem till_eq (hF : Faithful D R) (t : Byte → Bool) : ∀ (fuel size i : Nat) (d : δ) (s : List Byte), R d s → i ≤ size →
    s.length < fuel → ∃ d', tillDev D t size fuel i d = some ((Till.word t s).take (size - i), d') ∧
      R d' (s.drop (min (size - i) (Till.word t s).length)) := by
  intro fuel
  induction fuel with
  | zero => intro _ _ _ _ _ _ hl; omega
  | succ fuel ih =>
    intro size i d s hr hi hl
    obtain ⟨p, q, hb, hs, hp⟩ := hF.buffer hr
    have hsc := Till.scan_eq t (size - i) p
    have hwl := Till.word_length_le t p
    obtain ⟨d', hm, hr'⟩ := hF.move (n := (Till.scan t (size - i) p).length) hr hb (by
      rw [hsc, List.length_take]; omega)
    rw [tillDev, hb, Option.bind_some, hm, Option.bind_some]
    rw [hsc] at hr' ⊢
    simp only [List.length_take] at hr' ⊢
    by_cases hpe : p = []
    · have := hp hpe
      subst this
      subst hpe
      refine ⟨d', ?_, by simpa [Till.word] using hr'⟩
      simp [Till.word]
    · have hpl := List.length_pos_iff.mpr hpe
      have hcond : (i + min (size - i) (Till.word t p).length = size || p.isEmpty ||
          decide (min (size - i) (Till.word t p).length ≠ min p.length (size - i))) =
          decide (size - i ≤ (Till.word t p).length ∨ (Till.word t p).length < p.length) := by
        have h1 : p.isEmpty = false := by simpa using hpe
        rw [h1, Bool.or_false, ← Bool.decide_or]
        apply decide_eq_decide.mpr
        omega
      rw [hcond]
      by_cases hstop : size - i ≤ (Till.word t p).length ∨ (Till.word t p).length < p.length
      · simp only [decide_eq_true hstop, if_true]
        have hws := Till.word_append t p q
        rw [← hs] at hws
        refine ⟨d', ?_, ?_⟩
        · rw [hws]
          by_cases hw : Till.word t p = p
          · rw [if_pos hw, hw, List.take_append_of_le_length (by rw [hw] at hstop; omega)]
          · rw [if_neg hw]
        · convert hr' using 2
          rw [hws]
          by_cases hw : Till.word t p = p
          · rw [if_pos hw, hw, List.length_append]
            rw [hw] at hstop
            omega
          · rw [if_neg hw]
      · simp only [decide_eq_false hstop, Bool.false_eq_true, if_false]
        have hw : Till.word t p = p := Till.word_eq_of_length t p (by omega)
        have hws := Till.word_append t p q
        rw [← hs, if_pos hw] at hws
        rw [hw] at hr' ⊢
        rw [hw] at hstop
        have hmin : min (size - i) p.length = p.length := by omega
        rw [hmin] at hr' ⊢
        have hd : s.drop p.length = q := by rw [hs, List.drop_left]
        rw [hd] at hr'
        have hql : q.length < fuel := by
          have := congrArg List.length hs
          simp only [List.length_append] at this
          omega
        obtain ⟨d'', g1, g2⟩ := ih size (i + p.length) d' q hr' (by omega) hql
        refine ⟨d'', ?_, ?_⟩
        · rw [g1, Option.map_some, hws, List.take_append, List.take_of_length_le (by omega : p.length ≤ size - i)]
          rw [Nat.sub_add_eq]
        · convert g2 using 1
          rw [hws, ← hd, List.drop_drop, List.length_append]
          congr 1
          omega

theorem readString_dev (hF : Faithful D R) (t : Byte → Bool) : ∀ (fuel : Nat) (d : δ) (s acc : List Byte) (length : Nat),
    R d s → 0 < length → s.length < fuel → s.length < N →
    ∃ d', Till.readString (fun n d => tillDev D t n N 0 d) fuel acc length d = some (acc ++ Till.word t s, d') ∧
      R d' (s.drop (Till.word t s).length) := by
  intro fuel
  induction fuel with
  | zero => intro _ _ _ _ _ _ h; omega
  | succ fuel ih =>
    intro d s acc length hr hl hfu hN
    obtain ⟨d', h1, h2⟩ := till_eq hF t N length 0 d s hr (by omega) hN
    simp only [Nat.sub_zero] at h1 h2
    have hwl := Till.word_length_le t s
    simp only [Till.readString, h1, List.length_take]
    by_cases hlt : (Till.word t s).length < length
    · rw [if_pos (by omega)]
      refine ⟨d', by rw [List.take_of_length_le (by omega)], ?_⟩
      convert h2 using 2; omega
    · rw [if_neg (by omega)]
      rw [Nat.min_eq_left (by omega)] at h2
      obtain ⟨d'', g1, g2⟩ := ih d' (s.drop length) (acc ++ (Till.word t s).take length) (acc.length + length) h2
        (by omega) (by simp; omega) (by simp; omega)
      have hsplit : Till.word t s = (Till.word t s).take length ++ Till.word t (s.drop length) := by
        have htk : s.take length = (Till.word t s).take length := by
          have hp : Till.word t s <+: s := List.takeWhile_prefix _
          obtain ⟨u, hu⟩ := hp
          conv_lhs => rw [← hu]
          rw [List.take_append_of_le_length (by omega)]
        have hww : Till.word t ((Till.word t s).take length) = (Till.word t s).take length := by
          unfold Till.word
          rw [List.takeWhile_eq_self_iff]
          intro x hx
          exact List.mem_takeWhile_imp (p := fun c => !t c) (List.mem_of_mem_take hx)
        conv_lhs => rw [← List.take_append_drop length s, htk, Till.word_append, if_pos hww]
      refine ⟨d'', ?_, ?_⟩
      · rw [g1, List.append_assoc, ← hsplit]
      · have hl2 := congrArg List.length hsplit
        simp only [List.length_append, List.length_take] at hl2
        rw [List.drop_drop] at g2
        convert g2 using 2
        omega

/-! ### The simulation -/

/-- The states correspond. -/
def Corr (R : δ → List Byte → Prop) (N : Nat) (s : RSt) (e : DSt δ) : Prop :=
  R e.dev s.d ∧ s.separate = e.separate ∧ s.d.length < N

/-- The states correspond, or a character was read at the end of the input. -/
def After (D : Dev δ) (R : δ → List Byte → Prop) (N : Nat) (ok : Bool) (s : RSt) (e : DSt δ) : Prop :=
  Corr R N s e ∨ ok = false ∧ s.d = [] ∧ D.eof e.dev = true ∧ s.separate = e.separate

theorem After.corr {s : RSt} {e : DSt δ} (h : After D R N true s e) : Corr R N s e := by
  rcases h with h | h
  · exact h
  · exact absurd h.1 (by decide)

theorem After.level {s : RSt} {e : DSt δ} {ok : Bool} (h : After D R N ok s e) (b : Bool) :
    After D R N ok (s.level b) (e.level b) := by
  rcases h with h | h
  · exact .inl ⟨h.1, rfl, h.2.2⟩
  · exact .inr ⟨h.1, h.2.1, h.2.2.1, rfl⟩

/-- The results correspond. -/
def Agree {α : Type} (D : Dev δ) (R : δ → List Byte → Prop) (N : Nat) :
    Option (Bool × α × RSt) → Option (Bool × α × DSt δ) → Prop
  | none, none => True
  | some (ok, x, s), some (ok', x', e) => ok = ok' ∧ x = x' ∧ After D R N ok s e
  | _, _ => False

/-- The same without a value. -/
def Agree' (R : δ → List Byte → Prop) (N : Nat) : Option (Bool × RSt) → Option (Bool × DSt δ) → Prop
  | none, none => True
  | some (ok, s), some (ok', e) => ok = ok' ∧ Corr R N s e
  | _, _ => False

theorem corr_level {s : RSt} {e : DSt δ} (h : Corr R N s e) (b : Bool) : Corr R N (s.level b) (e.level b) :=
  ⟨h.1, rfl, h.2.2⟩

theorem enter_agree (hF : Faithful D R) (c : Cfg) (r : Reader) {s : RSt} {e : DSt δ} (h : Corr R N s e) :
    Agree' R N (enter c r s) (enterDev D N c r e) := by
  obtain ⟨h1, h2, h3⟩ := h
  cases r with
  | skipws => exact ⟨rfl, h1, h2, h3⟩
  | spaced =>
    obtain ⟨n, st', d', g1, g2, g3⟩ := drive_buffers (N := N) hF Parser.constParse_stepLaw
      (st := if e.separate then c.space else []) trivial h1 h3
    rw [enter, enterDev, Parser.readConst, h2, g1, g2]
    refine ⟨rfl, g3, rfl, ?_⟩
    simp only [List.length_drop]
    omega

theorem enterLeaf_agree (hF : Faithful D R) (c : Cfg) (r : Reader) {s : RSt} {e : DSt δ} (h : Corr R N s e) :
    Agree' R N (enterLeaf c r s) (enterLeafDev D N c r e) := by
  cases r with
  | skipws =>
    obtain ⟨h1, h2, h3⟩ := h
    obtain ⟨d', g1, g2⟩ := skip_eq hF Till.space_rejects_null N e.dev s.d h1 h3
    rw [enterLeaf, enterLeafDev, g1]
    refine ⟨rfl, g2, h2, ?_⟩
    have := (List.dropWhile_suffix isSpace (l := s.d)).length_le
    simp only
    omega
  | spaced => exact enter_agree hF c .spaced h

theorem leaf_agree (hF : Faithful D R) {α : Type} (c : Cfg) (r : Reader) {parse : List (List Byte) → Option (Nat × Option α)}
    {run : δ → Option (Option α × δ)} (hp : ∀ d s, R d s → s.length < N → ∃ n v d', parse (buffers s) = some (n, v) ∧
      run d = some (v, d') ∧ R d' (s.drop n)) (x : α) {s : RSt} {e : DSt δ} (h : Corr R N s e) :
    Agree D R N (readLeaf c r parse x s) (readLeafDev D N c r run x e) := by
  have he := enterLeaf_agree hF c r h
  rw [readLeaf, readLeafDev]
  generalize enterLeaf c r s = a at he
  generalize enterLeafDev D N c r e = b at he
  match a, b, he with
  | none, none, _ => trivial
  | some (ok, s'), some (ok', e'), ⟨h1, h2⟩ =>
    subst h1
    simp only [Option.bind_some]
    cases ok with
    | false => exact ⟨rfl, rfl, .inl h2⟩
    | true =>
      obtain ⟨n, v, d', g1, g2, g3⟩ := hp e'.dev s'.d h2.1 h2.2.2
      simp only [if_true, g1, g2, Option.map_some]
      refine ⟨rfl, rfl, .inl ⟨g3, h2.2.1, ?_⟩⟩
      have := h2.2.2
      simp only [List.length_drop]
      omega

theorem char_agree (hF : Faithful D R) (c : Cfg) (r : Reader) (x : Byte) {s : RSt} {e : DSt δ} (h : Corr R N s e) :
    Agree D R N (readChar c r x s) (readCharDev D N c r x e) := by
  have he := enterLeaf_agree hF c r h
  rw [readChar, readCharDev]
  generalize enterLeaf c r s = a at he
  generalize enterLeafDev D N c r e = b at he
  match a, b, he with
  | none, none, _ => trivial
  | some (ok, s'), some (ok', e'), ⟨h1, h2⟩ =>
    subst h1
    simp only [Option.bind_some, Option.map_some]
    cases ok with
    | false => exact ⟨rfl, rfl, .inl h2⟩
    | true =>
      obtain ⟨d, sep⟩ := s'
      obtain ⟨g1, g2, g3⟩ := h2
      simp only at g1 g2 g3
      cases d with
      | nil =>
        obtain ⟨d', k1, k2⟩ := hF.last g1
        simp only [if_true, k1, Option.map_some]
        exact ⟨by simp [k2], rfl, .inr ⟨rfl, rfl, k2, g2⟩⟩
      | cons y ys =>
        obtain ⟨d', k1, k2⟩ := hF.get g1
        simp only [if_true, k1, Option.map_some]
        refine ⟨by simp [hF.eof k2], rfl, .inl ⟨k2, g2, ?_⟩⟩
        simp only [List.length_cons] at g3
        simp only [List.drop_one, List.tail_cons]
        omega

theorem nested_agree (hF : Faithful D R) {α : Type} (c : Cfg) (r : Reader) {rd : RSt → Option (Bool × α × RSt)}
    {rd' : DSt δ → Option (Bool × α × DSt δ)} (hp : ∀ s e, Corr R N s e → Agree D R N (rd s) (rd' e)) (x : α) {s : RSt}
    {e : DSt δ} (h : Corr R N s e) : Agree D R N (nested c r rd x s) (nestedDev D N c r rd' x e) := by
  have he := enter_agree hF c r h
  rw [nested, nestedDev]
  generalize enter c r s = a at he
  generalize enterDev D N c r e = b at he
  match a, b, he with
  | none, none, _ => trivial
  | some (ok, s'), some (ok', e'), ⟨h1, h2⟩ =>
    subst h1
    simp only [Option.bind_some]
    cases ok with
    | false => exact ⟨rfl, rfl, .inl h2⟩
    | true =>
      simp only [if_true]
      have := hp _ _ (corr_level h2 true)
      generalize rd (s'.level true) = a at this
      generalize rd' (e'.level true) = b at this
      match a, b, this with
      | none, none, _ => trivial
      | some (ok, y, s''), some (ok', y', e''), ⟨k1, k2, k3⟩ => exact ⟨k1, k2, k3.level false⟩

theorem int_runs (hF : Faithful D R) (w : Nat) (signed : Bool) (base : Nat) (d : δ) (s : List Byte) (hr : R d s)
    (hl : s.length < N) : ∃ n v d', IntText.readInt w signed base (buffers s) = some (n, v) ∧
      intDev D N w signed base d = some (v, d') ∧ R d' (s.drop n) := by
  obtain ⟨n, st', d', g1, g2, g3⟩ := drive_buffers (N := N) hF (IntText.intParse_stepLaw w signed)
    (st := .init base) trivial hr hl
  exact ⟨n, _, d', by rw [IntText.readInt, g1], by rw [intDev, g2]; rfl, g3⟩

theorem bool_runs (hF : Faithful D R) (alpha : Bool) (d : δ) (s : List Byte) (hr : R d s)
    (hl : s.length < N) : ∃ n v d', Parser.readBool alpha (buffers s) = some (n, v) ∧
      boolDev D N alpha d = some (v, d') ∧ R d' (s.drop n) := by
  obtain ⟨n, st', d', g1, g2, g3⟩ := drive_buffers (N := N) hF (Parser.boolParse_stepLaw alpha)
    (st := .init) (fun _ => rfl) hr hl
  exact ⟨n, _, d', by rw [Parser.readBool, g1], by rw [boolDev, g2]; rfl, g3⟩

theorem word_runs (hF : Faithful D R) (old : List Byte) (d : δ) (s : List Byte) (hr : R d s)
    (hl : s.length < N) : ∃ n v d', readWord old (buffers s) = some (n, v) ∧
      wordDev D N old d = some (v, d') ∧ R d' (s.drop n) := by
  obtain ⟨d', g1, g2⟩ := readString_dev (N := N) hF isSpace N d s [] (Till.firstLength old.length) hr
    (by unfold Till.firstLength; omega) hl hl
  exact ⟨_, _, d', readWord_eq old s, by rw [wordDev, g1]; rfl, g2⟩

theorem size_agree (hF : Faithful D R) (c : Cfg) (r : Reader) {s : RSt} {e : DSt δ} (h : Corr R N s e) :
    Agree D R N (readSize c r s) (readSizeDev D N c r e) :=
  nested_agree hF c r (fun _ _ h => leaf_agree hF c r (int_runs hF 64 false c.num.base) 0 h) 0 h

theorem range_agree {α : Type} {rd : α → RSt → Option (Bool × α × RSt)} {rd' : α → DSt δ → Option (Bool × α × DSt δ)}
    (hp : ∀ x s e, Corr R N s e → Agree D R N (rd x s) (rd' x e)) (xs : List α) : ∀ {s : RSt} {e : DSt δ}, Corr R N s e →
    Agree D R N (readRange rd xs s) (readRangeDev rd' xs e) := by
  induction xs with
  | nil => intro s e h; exact ⟨rfl, rfl, .inl h⟩
  | cons x xs ih =>
    intro s e h
    have := hp x s e h
    rw [readRange, readRangeDev]
    generalize rd x s = a at this
    generalize rd' x e = b at this
    match a, b, this with
    | none, none, _ => trivial
    | some (ok, y, s'), some (ok', y', e'), ⟨k1, k2, k3⟩ =>
      subst k1 k2
      simp only [Option.bind_some]
      cases ok with
      | false => exact ⟨rfl, rfl, k3⟩
      | true =>
        simp only [if_true]
        have := ih k3.corr
        generalize readRange rd xs s' = a at this
        generalize readRangeDev rd' xs e' = b at this
        match a, b, this with
        | none, none, _ => trivial
        | some (ok, z, s''), some (ok', z', e''), ⟨k1, k2, k3⟩ => exact ⟨k1, by rw [k2], k3⟩

theorem emplace_agree {α : Type} {rd : α → RSt → Option (Bool × α × RSt)} {rd' : α → DSt δ → Option (Bool × α × DSt δ)}
    (hp : ∀ x s e, Corr R N s e → Agree D R N (rd x s) (rd' x e)) (fresh : α) (n : Nat) : ∀ (xs : List α) {s : RSt} {e : DSt δ},
    Corr R N s e → Agree D R N (readEmplace rd fresh n xs s) (readEmplaceDev rd' fresh n xs e) := by
  induction n with
  | zero => intro xs s e h; exact ⟨rfl, rfl, .inl h⟩
  | succ n ih =>
    intro xs s e h
    have := hp fresh s e h
    rw [readEmplace, readEmplaceDev]
    generalize rd fresh s = a at this
    generalize rd' fresh e = b at this
    match a, b, this with
    | none, none, _ => trivial
    | some (ok, y, s'), some (ok', y', e'), ⟨k1, k2, k3⟩ =>
      subst k1 k2
      simp only [Option.bind_some]
      cases ok with
      | false => exact ⟨rfl, rfl, k3⟩
      | true => exact ih _ k3.corr

theorem container_agree (hF : Faithful D R) {α : Type} (c : Cfg) (r : Reader) (old : List α)
    {el : Nat → RSt → Option (Bool × List α × RSt)} {el' : Nat → DSt δ → Option (Bool × List α × DSt δ)}
    (hp : ∀ n s e, Corr R N s e → Agree D R N (el n s) (el' n e)) {s : RSt} {e : DSt δ} (h : Corr R N s e) :
    Agree D R N (readContainer c r old el s) (readContainerDev D N c r old el' e) := by
  have := size_agree hF c r h
  rw [readContainer, readContainerDev]
  generalize readSize c r s = a at this
  generalize readSizeDev D N c r e = b at this
  match a, b, this with
  | none, none, _ => trivial
  | some (ok, y, s'), some (ok', y', e'), ⟨k1, k2, k3⟩ =>
    subst k1 k2
    simp only [Option.bind_some]
    cases ok with
    | false => exact ⟨rfl, rfl, k3⟩
    | true => exact hp _ _ _ k3.corr

mutual

theorem read_agree (hF : Faithful D R) (c : Cfg) (r : Reader) (t : Ty) (x : Val t) {s : RSt} {e : DSt δ}
    (h : Corr R N s e) : Agree D R N (read c r t x s) (readDev D N c r t x e) := by
  match t with
  | .int w signed => rw [read, readDev]; exact leaf_agree hF c r (int_runs hF w signed c.num.base) _ h
  | .bool => rw [read, readDev]; exact leaf_agree hF c r (bool_runs hF c.alpha) _ h
  | .char => rw [read, readDev]; exact char_agree hF c r x h
  | .str => rw [read, readDev]; exact leaf_agree hF c r (word_runs hF x) _ h
  | .tuple ts =>
    rw [read, readDev]
    exact nested_agree hF c r (fun _ _ h => readTuple_agree hF c r ts x h) _ h
  | .array n t =>
    rw [read, readDev]
    exact nested_agree hF c r (fun _ _ h => range_agree (fun y _ _ h => read_agree hF c r t y h) _ h) _ h
  | .vec t =>
    rw [read, readDev]
    refine nested_agree hF c r (fun _ _ h => container_agree hF c r _ (fun n s e h => ?_) h) _ h
    cases resize (default t) n x with
    | none => trivial
    | some xs => exact range_agree (fun y _ _ h => read_agree hF c r t y h) xs h
  | .seq t =>
    rw [read, readDev]
    exact nested_agree hF c r (fun _ _ h => container_agree hF c r _
      (fun n s e h => emplace_agree (fun y _ _ h => read_agree hF c r t y h) _ n _ h) h) _ h

theorem readTuple_agree (hF : Faithful D R) (c : Cfg) (r : Reader) (ts : Tys) (x : Vals ts) {s : RSt} {e : DSt δ}
    (h : Corr R N s e) : Agree D R N (readTuple c r ts x s) (readTupleDev D N c r ts x e) := by
  match ts with
  | .nil => rw [readTuple, readTupleDev]; exact ⟨rfl, rfl, .inl h⟩
  | .cons t ts =>
    have := read_agree hF c r t x.1 h
    rw [readTuple, readTupleDev]
    generalize read c r t x.1 s = a at this
    generalize readDev D N c r t x.1 e = b at this
    match a, b, this with
    | none, none, _ => trivial
    | some (ok, y, s'), some (ok', y', e'), ⟨k1, k2, k3⟩ =>
      subst k1 k2
      simp only [Option.bind_some]
      cases ok with
      | false => exact ⟨rfl, rfl, k3⟩
      | true =>
        simp only [if_true]
        have := readTuple_agree hF c r ts x.2 k3.corr
        generalize readTuple c r ts x.2 s' = a at this
        generalize readTupleDev D N c r ts x.2 e' = b at this
        match a, b, this with
        | none, none, _ => trivial
        | some (ok, z, s''), some (ok', z', e''), ⟨k1, k2, k3⟩ => exact ⟨k1, by rw [k2], k3⟩

end

end Actl.TextTree

/-! ### The devices -/

namespace Actl.TextTree

open Actl.Text

/-- A buffered reader of `data` that has been filled, with `s` not delivered yet. -/
def Filled (data : List Byte) (r : Buffered.Reader) (s : List Byte) : Prop :=
  ∃ pos, Buffered.Rel data pos r ∧ Buffered.Primed r ∧ pos ≤ data.length ∧ s = data.drop pos

theorem filled_ptr {data s : List Byte} {r : Buffered.Reader} (h : Filled data r s) : r.ptr ≤ r.buf.length := by
  obtain ⟨pos, ⟨pre, h1, h2, h3⟩, -, hp, -⟩ := h
  rcases Nat.lt_or_ge r.buf.length r.ptr with hlt | hge
  · have hrest := h3 hlt
    have : data.length = pre.length + r.buf.length := by rw [h1, hrest]; simp
    omega
  · exact hge

theorem buffered_faithful {B : Nat} (hB : 0 < B) (data : List Byte) : Faithful (bufferedDev B) (Filled data) where
  buffer := by
    intro r s h
    have hp := filled_ptr h
    obtain ⟨pos, h1, h2, h3, h4⟩ := h
    refine ⟨r.buf.drop r.ptr, r.rest, ?_, by rw [h4, Buffered.drop_rel h1 hp], ?_⟩
    · simp [bufferedDev, Buffered.Reader.inputBuffer, hp]
    · intro he
      rw [h4, Buffered.drop_rel h1 hp, he]
      rcases h2 with h2 | h2
      · have := congrArg List.length he
        simp at this
        omega
      · simpa using h2
  move := by
    intro r s p n h hb hn
    have hp := filled_ptr h
    obtain ⟨pos, h1, h2, h3, h4⟩ := h
    simp only [bufferedDev, Buffered.Reader.inputBuffer, hp, if_true, Option.some.injEq] at hb
    subst hb
    simp only [List.length_drop] at hn
    have hd := congrArg List.length (Buffered.drop_rel h1 hp)
    simp only [List.length_append, List.length_drop] at hd
    obtain ⟨m1, m2⟩ := Buffered.move_rel (n := n) hB h1 h2 (.inl (by omega))
    exact ⟨_, rfl, pos + n, m1, m2, by omega, by rw [h4, List.drop_drop]⟩
  peek := by
    intro r s ⟨pos, h1, h2, h3, h4⟩
    simp only [bufferedDev, Buffered.peek_rel h1 h2, h4]
    rw [List.getD_eq_getElem?_getD, List.headD_eq_head?_getD, List.head?_drop]
  eof := by
    intro r s h
    have := filled_ptr h
    simp only [bufferedDev, Buffered.Reader.eof, decide_eq_false_iff_not]
    omega
  get := by
    intro r x s h
    have hp := filled_ptr h
    obtain ⟨pos, h1, h2, h3, h4⟩ := h
    have hpos : pos < data.length := by
      have := congrArg List.length h4
      simp only [List.length_cons, List.length_drop] at this
      omega
    obtain ⟨m1, m2⟩ := Buffered.move_rel (n := 1) hB h1 h2 (.inl (by
      have hd := congrArg List.length (Buffered.drop_rel h1 hp)
      simp only [List.length_append, List.length_drop] at hd
      rcases h2 with h2 | h2
      · omega
      · rw [h2] at hd; simp at hd; omega))
    refine ⟨r.move B 1, ?_, pos + 1, m1, m2, by omega, by rw [← List.drop_drop, ← h4]; rfl⟩
    simp only [bufferedDev, Buffered.Reader.get, Buffered.peek_rel h1 h2]
    rw [List.getD_eq_getElem?_getD, ← List.head?_drop, ← h4]
    rfl
  last := by
    intro r h
    have hp := filled_ptr h
    obtain ⟨pos, h1, h2, h3, h4⟩ := h
    have hd := Buffered.drop_rel h1 hp
    rw [← h4] at hd
    have hl := congrArg List.length hd
    simp only [List.length_append, List.length_drop, List.length_nil] at hl
    have hpos := congrArg List.length h4
    simp only [List.length_drop, List.length_nil] at hpos
    refine ⟨r.move B 1, ?_, ?_⟩
    · simp only [bufferedDev, Buffered.Reader.get, Buffered.peek_rel h1 h2]
      rw [List.getD_eq_getElem?_getD, List.getElem?_eq_none (by omega)]
      rfl
    · simp only [bufferedDev, Buffered.Reader.eof, Buffered.Reader.move]
      rw [if_neg (by omega)]
      simp only [decide_eq_true_eq]
      omega

/-- A memory device with `s` behind its pointer. -/
def MemLeft (m : Device.Mem) (s : List Byte) : Prop :=
  ∃ n : Nat, m.pos = n ∧ n ≤ m.data.length ∧ s = m.data.drop n

theorem memory_faithful : Faithful memoryDev MemLeft where
  buffer := by
    intro m s ⟨n, h1, h2, h3⟩
    refine ⟨s, [], ?_, by simp, fun h => h⟩
    simp only [memoryDev, h1]
    rw [if_pos ⟨by omega, by omega⟩, h3]
    simp
  move := by
    intro m s p k ⟨n, h1, h2, h3⟩ hb hk
    simp only [memoryDev, h1] at hb
    rw [if_pos ⟨by omega, by omega⟩] at hb
    simp only [Int.toNat_natCast, Option.some.injEq] at hb
    subst hb
    simp only [List.length_drop] at hk
    refine ⟨_, rfl, n + k, ?_, ?_, ?_⟩
    · simp [Device.Mem.move, h1]
    · simp [Device.Mem.move]; omega
    · rw [h3, List.drop_drop]; rfl
  peek := by
    intro m s ⟨n, h1, h2, h3⟩
    simp only [memoryDev, Device.Mem.peek, h1, h3]
    rw [List.headD_eq_head?_getD, List.head?_drop]
    by_cases hn : n < m.data.length
    · rw [if_pos (by omega), if_pos (by omega)]
      simp [hn]
    · rw [if_neg (by omega)]
      simp [List.getElem?_eq_none (by omega : m.data.length ≤ n)]
  eof := by
    intro m s ⟨n, h1, h2, h3⟩
    simp only [memoryDev, Device.Mem.eof, h1, decide_eq_false_iff_not]
    omega
  get := by
    intro m x s ⟨n, h1, h2, h3⟩
    have hn : n < m.data.length := by
      have := congrArg List.length h3
      simp only [List.length_cons, List.length_drop] at this
      omega
    have hx : m.data[n]? = some x := by rw [← List.head?_drop, ← h3]; rfl
    refine ⟨{ m with pos := m.pos + 1 }, ?_, n + 1, ?_, hn, ?_⟩
    · simp only [memoryDev, Device.Mem.get, Device.Mem.peek]
      rw [if_pos (by omega), if_pos (by omega), h1]
      simp [hx]
    · simp [h1]
    · simp only; rw [← List.drop_drop, ← h3]; rfl
  last := by
    intro m ⟨n, h1, h2, h3⟩
    have := congrArg List.length h3
    simp only [List.length_nil, List.length_drop] at this
    refine ⟨{ m with pos := m.pos + 1 }, ?_, ?_⟩
    · simp only [memoryDev, Device.Mem.get, Device.Mem.peek]
      rw [if_neg (by omega)]
    · simp only [memoryDev, Device.Mem.eof, decide_eq_true_eq]
      omega

/-- A string device with `s` behind its position. -/
def StrLeft (d : Device.Str) (s : List Byte) : Prop :=
  d.pos ≤ d.s.length ∧ d.s.length < 2 ^ 63 ∧ s = d.s.drop d.pos

theorem string_faithful : Faithful stringDev StrLeft where
  buffer := by
    intro d s ⟨h1, h2, h3⟩
    exact ⟨s, [], by simp [stringDev, h1, h3], by simp, fun h => h⟩
  move := by
    intro d s p k ⟨h1, h2, h3⟩ hb hk
    simp only [stringDev, h1, if_true, Option.some.injEq] at hb
    subst hb
    simp only [List.length_drop] at hk
    have e : (((d.pos : Int) + k) % 2 ^ 64).toNat = d.pos + k := by
      rw [Int.emod_eq_of_lt (by omega) (by omega)]
      omega
    refine ⟨_, rfl, ?_, h2, ?_⟩
    · simp only [Device.Str.move, e]; omega
    · simp only [Device.Str.move, e]; rw [h3, List.drop_drop]
  peek := by
    intro d s ⟨h1, h2, h3⟩
    simp only [stringDev, Device.Str.peek, h3]
    rw [List.headD_eq_head?_getD, List.head?_drop]
    by_cases hn : d.pos < d.s.length
    · rw [if_pos hn, List.getD_eq_getElem?_getD]
    · rw [if_neg hn]
      simp [List.getElem?_eq_none (by omega : d.s.length ≤ d.pos)]
  eof := by
    intro d s ⟨h1, h2, h3⟩
    simp only [stringDev, Device.Str.eof, decide_eq_false_iff_not]
    omega
  get := by
    intro d x s ⟨h1, h2, h3⟩
    have hn : d.pos < d.s.length := by
      have := congrArg List.length h3
      simp only [List.length_cons, List.length_drop] at this
      omega
    have hx : d.s[d.pos]? = some x := by rw [← List.head?_drop, ← h3]; rfl
    have hm : (d.pos + 1) % 2 ^ 64 = d.pos + 1 := Nat.mod_eq_of_lt (by omega)
    refine ⟨{ d with pos := (d.pos + 1) % 2 ^ 64 }, ?_, ?_, h2, ?_⟩
    · simp only [stringDev, Device.Str.get, Device.Str.peek]
      rw [if_pos hn, List.getD_eq_getElem?_getD, hx]
      rfl
    · simp only [hm]; omega
    · simp only [hm]; rw [← List.drop_drop, ← h3]; rfl
  last := by
    intro d ⟨h1, h2, h3⟩
    have := congrArg List.length h3
    simp only [List.length_nil, List.length_drop] at this
    have hm : (d.pos + 1) % 2 ^ 64 = d.pos + 1 := Nat.mod_eq_of_lt (by omega)
    refine ⟨{ d with pos := (d.pos + 1) % 2 ^ 64 }, ?_, ?_⟩
    · simp only [stringDev, Device.Str.get, Device.Str.peek]
      rw [if_neg (by omega)]
    · simp only [stringDev, Device.Str.eof, hm, decide_eq_true_eq]
      omega

/-! ### A buffered reader that has not been filled -/

section Fresh

variable {data : List Byte} {B N : Nat}

theorem fresh_drive {σ : Type} (parse : σ → List Byte → Option (Nat × σ)) (st : σ) (hN : 0 < N) :
    drive (bufferedDev B) parse N st (Buffered.Reader.fresh data) = some (st, Buffered.Reader.fresh data) := by
  obtain ⟨n, rfl⟩ : ∃ n, N = n + 1 := ⟨N - 1, by omega⟩
  rfl

theorem fresh_skip (hN : 0 < N) :
    skipDev (bufferedDev B) isSpace N (Buffered.Reader.fresh data) = some (Buffered.Reader.fresh data) := by
  obtain ⟨n, rfl⟩ : ∃ n, N = n + 1 := ⟨N - 1, by omega⟩
  simp [skipDev, bufferedDev, Buffered.Reader.eof, Buffered.Reader.fresh, Buffered.Reader.peek, Till.space_rejects_null]

theorem fresh_int (w : Nat) (signed : Bool) (base : Nat) (hN : 0 < N) :
    intDev (bufferedDev B) N w signed base (Buffered.Reader.fresh data) = some (none, Buffered.Reader.fresh data) := by
  rw [intDev, fresh_drive _ _ hN]
  rfl

theorem fresh_bool (alpha : Bool) (hN : 0 < N) :
    boolDev (bufferedDev B) N alpha (Buffered.Reader.fresh data) = some (none, Buffered.Reader.fresh data) := by
  rw [boolDev, fresh_drive _ _ hN]
  rfl

theorem fresh_word (old : List Byte) (hN : 0 < N) : ∃ r,
    wordDev (bufferedDev B) N old (Buffered.Reader.fresh data) = some (some [], r) := by
  obtain ⟨n, rfl⟩ : ∃ n, N = n + 1 := ⟨N - 1, by omega⟩
  have hl : 0 < Till.firstLength old.length := by unfold Till.firstLength; omega
  refine ⟨(Buffered.Reader.fresh data).underflow B, ?_⟩
  have : ∀ size, Till.scan isSpace size [] = [] := by intro size; cases size <;> rfl
  rw [wordDev, Till.readString]
  simp [tillDev, bufferedDev, Buffered.Reader.inputBuffer, Buffered.Reader.fresh, this, Buffered.Reader.move, hl]

theorem fresh_enter (c : Cfg) (r : Reader) (hN : 0 < N) {e : DSt Buffered.Reader}
    (he : e.dev = Buffered.Reader.fresh data) {ok : Bool} {e' : DSt Buffered.Reader}
    (h : enterDev (bufferedDev B) N c r e = some (ok, e')) : e'.dev = Buffered.Reader.fresh data := by
  cases r with
  | skipws => simp only [enterDev, Option.some.injEq, Prod.mk.injEq] at h; rw [← h.2, he]
  | spaced =>
    rw [enterDev, he, fresh_drive _ _ hN] at h
    simp only [Option.map_some, Option.some.injEq, Prod.mk.injEq] at h
    rw [← h.2]

theorem fresh_enterLeaf (c : Cfg) (r : Reader) (hN : 0 < N) {e : DSt Buffered.Reader}
    (he : e.dev = Buffered.Reader.fresh data) {ok : Bool} {e' : DSt Buffered.Reader}
    (h : enterLeafDev (bufferedDev B) N c r e = some (ok, e')) : e'.dev = Buffered.Reader.fresh data := by
  cases r with
  | skipws =>
    rw [enterLeafDev, he, fresh_skip hN] at h
    simp only [Option.map_some, Option.some.injEq, Prod.mk.injEq] at h
    rw [← h.2]
  | spaced => exact fresh_enter c .spaced hN he h

/-- A number or boolean cannot be read. -/
theorem fresh_leaf {α : Type} (c : Cfg) (r : Reader) (hN : 0 < N) {run : Buffered.Reader → Option (Option α × Buffered.Reader)}
    (hr : run (Buffered.Reader.fresh data) = some (none, Buffered.Reader.fresh data)) (x : α) {e : DSt Buffered.Reader}
    (he : e.dev = Buffered.Reader.fresh data) {z : α} {e' : DSt Buffered.Reader} :
    readLeafDev (bufferedDev B) N c r run x e ≠ some (true, z, e') := by
  intro h
  rw [readLeafDev, Option.bind_eq_some_iff] at h
  obtain ⟨⟨ok, e1⟩, h1, h2⟩ := h
  have := fresh_enterLeaf c r hN he h1
  simp only [this, hr] at h2
  split at h2 <;> simp at h2

/-- Neither can a character. -/
theorem fresh_char (c : Cfg) (r : Reader) (hN : 0 < N) (x : Byte) {e : DSt Buffered.Reader}
    (he : e.dev = Buffered.Reader.fresh data) {z : Byte} {e' : DSt Buffered.Reader} :
    readCharDev (bufferedDev B) N c r x e ≠ some (true, z, e') := by
  intro h
  rw [readCharDev, Option.bind_eq_some_iff] at h
  obtain ⟨⟨ok, e1⟩, h1, h2⟩ := h
  have := fresh_enterLeaf c r hN he h1
  cases ok with
  | false => simp at h2
  | true =>
    simp [this, bufferedDev, Buffered.Reader.get, Buffered.Reader.fresh, Buffered.Reader.move,
      Buffered.Reader.eof] at h2

/-- What can be read starts with nothing or with an empty string. -/
def Hollow (toks : List Token) : Prop := ∃ a b, toks = a ++ .word [] :: b ∧ ∀ tok ∈ a, tok = .nothing

def AllNothing (toks : List Token) : Prop := ∀ tok ∈ toks, tok = .nothing

theorem hollow_left {a b : List Token} (h : Hollow a) : Hollow (a ++ b) := by
  obtain ⟨u, v, rfl, hu⟩ := h
  exact ⟨u, v ++ b, by simp, hu⟩

theorem hollow_right {a b : List Token} (ha : AllNothing a) (h : Hollow b) : Hollow (a ++ b) := by
  obtain ⟨u, v, rfl, hu⟩ := h
  refine ⟨a ++ u, v, by simp, ?_⟩
  intro tok ht
  rcases List.mem_append.mp ht with ht | ht
  · exact ha tok ht
  · exact hu tok ht

/-- The outcome of reading from a reader that has not been filled. -/
def Outcome (data : List Byte) (toks : List Token) (e : DSt Buffered.Reader) : Prop :=
  AllNothing toks ∧ e.dev = Buffered.Reader.fresh data ∨ Hollow toks

theorem fresh_nested {α : Type} (c : Cfg) (r : Reader) (hN : 0 < N) {rd : DSt Buffered.Reader → Option (Bool × α × DSt Buffered.Reader)}
    {tk : α → List Token} (hrd : ∀ e, e.dev = Buffered.Reader.fresh data → ∀ z e', rd e = some (true, z, e') →
      Outcome data (tk z) e') (x : α) {e : DSt Buffered.Reader} (he : e.dev = Buffered.Reader.fresh data) {z : α}
    {e' : DSt Buffered.Reader} (h : nestedDev (bufferedDev B) N c r rd x e = some (true, z, e')) :
    Outcome data (tk z) e' := by
  rw [nestedDev, Option.bind_eq_some_iff] at h
  obtain ⟨⟨ok, e1⟩, h1, h2⟩ := h
  have h3 := fresh_enter c r hN he h1
  cases ok with
  | false => simp at h2
  | true =>
    simp only [if_true, Option.map_eq_some_iff] at h2
    obtain ⟨⟨ok, y, e2⟩, h4, h5⟩ := h2
    simp only [Prod.mk.injEq] at h5
    obtain ⟨rfl, rfl, rfl⟩ := h5
    have := hrd (e1.level true) h3 _ _ h4
    exact this

theorem fresh_size (c : Cfg) (r : Reader) (hN : 0 < N) {e : DSt Buffered.Reader}
    (he : e.dev = Buffered.Reader.fresh data) {z : Int} {e' : DSt Buffered.Reader} :
    readSizeDev (bufferedDev B) N c r e ≠ some (true, z, e') := by
  intro h
  have := fresh_nested (tk := fun _ => [.flag true]) c r hN (fun e he z e' h =>
    absurd h (fresh_leaf c r hN (fresh_int 64 false c.num.base hN) 0 he)) 0 he h
  rcases this with h | ⟨a, b, h, ha⟩
  · have := h.1 (.flag true) (by simp)
    cases this
  · cases a with
    | nil => simp at h
    | cons t a => simp only [List.cons_append, List.cons.injEq, List.nil_eq, List.append_eq_nil_iff] at h; simp at h

theorem fresh_range {α : Type} {rd : α → DSt Buffered.Reader → Option (Bool × α × DSt Buffered.Reader)}
    {tk : α → List Token} (hrd : ∀ x e, e.dev = Buffered.Reader.fresh data → ∀ z e', rd x e = some (true, z, e') →
      Outcome data (tk z) e') (xs : List α) : ∀ {e : DSt Buffered.Reader}, e.dev = Buffered.Reader.fresh data → ∀ {zs e'},
    readRangeDev rd xs e = some (true, zs, e') → Outcome data (zs.flatMap tk) e' := by
  induction xs with
  | nil =>
    intro e he zs e' h
    simp only [readRangeDev, Option.some.injEq, Prod.mk.injEq] at h
    obtain ⟨-, rfl, rfl⟩ := h
    exact .inl ⟨by simp [AllNothing], he⟩
  | cons x xs ih =>
    intro e he zs e' h
    rw [readRangeDev, Option.bind_eq_some_iff] at h
    obtain ⟨⟨ok, y, e1⟩, h1, h2⟩ := h
    cases ok with
    | false => simp at h2
    | true =>
      simp only [if_true, Option.map_eq_some_iff] at h2
      obtain ⟨⟨ok, ys, e2⟩, h4, h5⟩ := h2
      simp only [Prod.mk.injEq] at h5
      obtain ⟨rfl, rfl, rfl⟩ := h5
      rw [List.flatMap_cons]
      rcases hrd x e he y e1 h1 with ⟨g1, g2⟩ | g
      · rcases ih g2 h4 with ⟨g3, g4⟩ | g3
        · refine .inl ⟨?_, g4⟩
          intro tok ht
          rcases List.mem_append.mp ht with ht | ht
          · exact g1 tok ht
          · exact g3 tok ht
        · exact .inr (hollow_right g1 g3)
      · exact .inr (hollow_left g)

theorem fresh_leafWord (c : Cfg) (r : Reader) (hN : 0 < N) (y x : List Byte) {e : DSt Buffered.Reader}
    (he : e.dev = Buffered.Reader.fresh data) {z : List Byte} {e' : DSt Buffered.Reader}
    (h : readLeafDev (bufferedDev B) N c r (wordDev (bufferedDev B) N y) x e = some (true, z, e')) : z = [] := by
  rw [readLeafDev, Option.bind_eq_some_iff] at h
  obtain ⟨⟨ok, e1⟩, h1, h2⟩ := h
  obtain ⟨r', hr'⟩ := fresh_word (data := data) (B := B) y hN
  simp only [fresh_enterLeaf c r hN he h1, hr'] at h2
  cases ok with
  | false => simp at h2
  | true =>
    simp only [if_true, Option.map_some, Option.some.injEq, Prod.mk.injEq, Option.getD_some] at h2
    exact h2.2.1.symm

theorem fresh_container {α : Type} (c : Cfg) (r : Reader) (hN : 0 < N) (old : List α)
    {el : Nat → DSt Buffered.Reader → Option (Bool × List α × DSt Buffered.Reader)} {e : DSt Buffered.Reader}
    (he : e.dev = Buffered.Reader.fresh data) {z : List α} {e' : DSt Buffered.Reader} :
    readContainerDev (bufferedDev B) N c r old el e ≠ some (true, z, e') := by
  intro h
  rw [readContainerDev, Option.bind_eq_some_iff] at h
  obtain ⟨⟨ok, v, e1⟩, h1, h2⟩ := h
  cases ok with
  | false => simp at h2
  | true => exact absurd h1 (fresh_size c r hN he)

mutual

theorem fresh_readDev (c : Cfg) (r : Reader) (hN : 0 < N) (t : Ty) (y : Val t) {e : DSt Buffered.Reader}
    (he : e.dev = Buffered.Reader.fresh data) {z : Val t} {e' : DSt Buffered.Reader}
    (h : readDev (bufferedDev B) N c r t y e = some (true, z, e')) : Outcome data (tokens t z) e' := by
  match t with
  | .int w signed => rw [readDev] at h; exact absurd h (fresh_leaf c r hN (fresh_int w signed _ hN) _ he)
  | .bool => rw [readDev] at h; exact absurd h (fresh_leaf c r hN (fresh_bool _ hN) _ he)
  | .char => rw [readDev] at h; exact absurd h (fresh_char c r hN _ he)
  | .str =>
    rw [readDev] at h
    have : (show List Byte from z) = [] := fresh_leafWord c r hN y y he h
    exact .inr ⟨[], [], congrArg (fun w => [Token.word w]) this, by simp⟩
  | .tuple .nil =>
    rw [readDev] at h
    refine fresh_nested (tk := tokens (.tuple .nil)) c r hN (fun e he z e' h => ?_) _ he h
    rcases fresh_readTuple c r hN .nil y he h with ⟨-, h⟩ | ⟨a, b, h, -⟩
    · exact .inl ⟨by simp [tokens, AllNothing], h⟩
    · simp [tokensTuple] at h
  | .tuple (.cons t ts) =>
    rw [readDev] at h
    exact fresh_nested (tk := tokens (.tuple (.cons t ts))) c r hN
      (fun e he z e' h => fresh_readTuple c r hN (.cons t ts) y he h) _ he h
  | .array n t =>
    rw [readDev] at h
    refine fresh_nested (tk := tokens (.array n t)) c r hN (fun e he z e' h => ?_) _ he h
    have := fresh_range (tk := tokens t) (fun x e he z e' h => fresh_readDev c r hN t x he h) _ he h
    rw [tokens]
    split
    · rename_i hz
      have hz : (show List (Val t) from z) = [] := List.isEmpty_iff.mp hz
      change Outcome data (List.flatMap (tokens t) (show List (Val t) from z)) e' at this
      rw [hz] at this
      rcases this with ⟨-, h⟩ | ⟨a, b, h, -⟩
      · exact .inl ⟨by simp [AllNothing], h⟩
      · simp at h
    · exact this
  | .vec t =>
    rw [readDev] at h
    exact fresh_nested (tk := tokens (.vec t)) c r hN (fun e he z e' h => absurd h (fresh_container c r hN _ he)) _ he h
  | .seq t =>
    rw [readDev] at h
    exact fresh_nested (tk := tokens (.seq t)) c r hN (fun e he z e' h => absurd h (fresh_container c r hN _ he)) _ he h

theorem fresh_readTuple (c : Cfg) (r : Reader) (hN : 0 < N) (ts : Tys) (y : Vals ts) {e : DSt Buffered.Reader}
    (he : e.dev = Buffered.Reader.fresh data) {z : Vals ts} {e' : DSt Buffered.Reader}
    (h : readTupleDev (bufferedDev B) N c r ts y e = some (true, z, e')) : Outcome data (tokensTuple ts z) e' := by
  match ts with
  | .nil =>
    rw [readTupleDev] at h
    simp only [Option.some.injEq, Prod.mk.injEq] at h
    rw [← h.2.2]
    exact .inl ⟨by simp [tokensTuple, AllNothing], he⟩
  | .cons t ts =>
    rw [readTupleDev, Option.bind_eq_some_iff] at h
    obtain ⟨⟨ok, x1, e1⟩, h1, h2⟩ := h
    cases ok with
    | false => simp at h2
    | true =>
      simp only [if_true, Option.map_eq_some_iff] at h2
      obtain ⟨⟨ok, x2, e2⟩, h4, h5⟩ := h2
      simp only [Prod.mk.injEq] at h5
      obtain ⟨rfl, rfl, rfl⟩ := h5
      change Outcome data (tokens t x1 ++ tokensTuple ts x2) _
      rcases fresh_readDev c r hN t y.1 he h1 with ⟨g1, g2⟩ | g
      · rcases fresh_readTuple c r hN ts y.2 g2 h4 with ⟨g3, g4⟩ | g3
        · refine .inl ⟨?_, g4⟩
          intro tok ht
          rcases List.mem_append.mp ht with ht | ht
          · exact g1 tok ht
          · exact g3 tok ht
        · exact .inr (hollow_right g1 g3)
      · exact .inr (hollow_left g)

end

end Fresh

end Actl.TextTree
