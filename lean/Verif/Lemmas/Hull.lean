import Verif.Model.Hull
import Verif.Spec.Hull
import Verif.Props.Intersect
import Mathlib.Tactic.LinearCombination
import Mathlib.Tactic.Linarith

/-!
# Lemmas on the monotone chain

The lexicographic order of the plane is an ordered vector space; every step of the algorithm comes
from one identity between three vectors.
-/

namespace Actl.Geo

variable {F : Type*} [Field F] [LinearOrder F] [IsStrictOrderedRing F]

/-! ## Lexicographic sign of a vector -/

/-- Lexicographically positive. -/
def LexPos (v : Vec F 2) : Prop := 0 < v 0 ∨ v 0 = 0 ∧ 0 < v 1

/-- Lexicographically non-negative. -/
def LexNonneg (v : Vec F 2) : Prop := 0 < v 0 ∨ v 0 = 0 ∧ 0 ≤ v 1

theorem key_lt_iff {p q : Vec F 2} : key p < key q ↔ LexPos (q - p) := by
  rw [key_lt, LexPos]
  simp only [Pi.sub_apply, sub_pos, sub_eq_zero]
  rw [eq_comm (a := p 0)]

theorem key_le_iff {p q : Vec F 2} : key p ≤ key q ↔ LexNonneg (q - p) := by
  rw [le_iff_lt_or_eq, key_lt, key_inj, LexNonneg]
  simp only [Pi.sub_apply, sub_pos, sub_eq_zero, sub_nonneg]
  constructor
  · rintro ((h | ⟨h, h'⟩) | h)
    · exact .inl h
    · exact .inr ⟨h.symm, h'.le⟩
    · subst h; exact .inr ⟨rfl, le_rfl⟩
  · rintro (h | ⟨h, h'⟩)
    · exact .inl (.inl h)
    · rcases h'.lt_or_eq with h'' | h''
      · exact .inl (.inr ⟨h.symm, h''⟩)
      · exact .inr (vec2_ext h.symm h'')

theorem LexPos.nonneg {v : Vec F 2} (h : LexPos v) : LexNonneg v := by
  rcases h with h | ⟨h, h'⟩
  · exact .inl h
  · exact .inr ⟨h, h'.le⟩

theorem LexNonneg.pos_or_zero {v : Vec F 2} (h : LexNonneg v) : LexPos v ∨ v = 0 := by
  rcases h with h | ⟨h, h'⟩
  · exact .inl (.inl h)
  · rcases h'.lt_or_eq with h'' | h''
    · exact .inl (.inr ⟨h, h''⟩)
    · exact .inr (vec2_ext h h''.symm)

theorem LexNonneg.smul {v : Vec F 2} (h : LexNonneg v) {c : F} (hc : 0 ≤ c) : LexNonneg (c • v) := by
  rcases hc.lt_or_eq with hc' | rfl
  · rcases h with h | ⟨h, h'⟩
    · exact .inl (by simpa using mul_pos hc' h)
    · exact .inr ⟨by simp [h], by simpa using mul_nonneg hc h'⟩
  · exact .inr ⟨by simp, by simp⟩

theorem LexPos.smul {v : Vec F 2} (h : LexPos v) {c : F} (hc : 0 < c) : LexPos (c • v) := by
  rcases h with h | ⟨h, h'⟩
  · exact .inl (by simpa using mul_pos hc h)
  · exact .inr ⟨by simp [h], by simpa using mul_pos hc h'⟩

theorem LexNonneg.add {u v : Vec F 2} (hu : LexNonneg u) (hv : LexNonneg v) :
    LexNonneg (u + v) := by
  unfold LexNonneg at *
  simp only [Pi.add_apply]
  rcases hu with h | ⟨h, h'⟩ <;> rcases hv with k | ⟨k, k'⟩
  · exact .inl (by linarith)
  · exact .inl (by linarith)
  · exact .inl (by linarith)
  · exact .inr ⟨by linarith, by linarith⟩

theorem LexNonneg.add_pos {u v : Vec F 2} (hu : LexNonneg u) (hv : LexPos v) : LexPos (u + v) := by
  unfold LexNonneg LexPos at *
  simp only [Pi.add_apply]
  rcases hu with h | ⟨h, h'⟩ <;> rcases hv with k | ⟨k, k'⟩
  · exact .inl (by linarith)
  · exact .inl (by linarith)
  · exact .inl (by linarith)
  · exact .inr ⟨by linarith, by linarith⟩

theorem nonneg_of_smul {e : Vec F 2} {k : F} (he : LexPos e) (h : LexNonneg (k • e)) : 0 ≤ k := by
  by_contra hk
  push Not at hk
  unfold LexNonneg LexPos at *
  simp only [Pi.smul_apply, smul_eq_mul] at h
  rcases he with he | ⟨he, he'⟩
  · rcases h with h | ⟨h, -⟩ <;> nlinarith
  · rcases h with h | ⟨-, h⟩
    · simp [he] at h
    · nlinarith

theorem pos_of_smul {e : Vec F 2} {k : F} (he : LexPos e) (h : LexPos (k • e)) : 0 < k := by
  rcases (nonneg_of_smul he h.nonneg).lt_or_eq with h' | rfl
  · exact h'
  · simp [LexPos] at h

/-! ## Consequences of the identity between three vectors -/

/-- `b` is between `a` and `c` in direction: turning from `a` to `b` and from `b` to `c`. -/
theorem area_trans {a b c : Vec F 2} (ha : LexNonneg a) (hb : LexPos b) (hc : LexNonneg c)
    (hab : 0 ≤ area a b) (hbc : 0 ≤ area b c) : 0 ≤ area a c := by
  refine nonneg_of_smul hb ?_
  have : area a c • b = area b c • a + area a b • c := by
    apply vec2_ext <;> simp [area] <;> ring
  rw [this]
  exact (ha.smul hbc).add (hc.smul hab)

theorem area_trans_left {a b c : Vec F 2} (ha : LexPos a) (hb : LexPos b) (hc : LexNonneg c)
    (hab : 0 ≤ area a b) (hbc : 0 < area b c) : 0 < area a c := by
  refine pos_of_smul hb ?_
  have : area a c • b = area a b • c + area b c • a := by
    apply vec2_ext <;> simp [area] <;> ring
  rw [this]
  exact (hc.smul hab).add_pos (ha.smul hbc)

theorem area_trans_right {a b c : Vec F 2} (ha : LexNonneg a) (hb : LexPos b) (hc : LexPos c)
    (hab : 0 < area a b) (hbc : 0 ≤ area b c) : 0 < area a c := by
  refine pos_of_smul hb ?_
  have : area a c • b = area b c • a + area a b • c := by
    apply vec2_ext <;> simp [area] <;> ring
  rw [this]
  exact (ha.smul hbc).add_pos (hc.smul hab)

theorem lexPos_of_area_left {u v : Vec F 2} (hu : LexNonneg u) (h : 0 < area u v) : LexPos u := by
  rcases hu.pos_or_zero with h' | rfl
  · exact h'
  · simp [area] at h

theorem lexPos_of_area_right {u v : Vec F 2} (hv : LexNonneg v) (h : 0 < area u v) : LexPos v := by
  rcases hv.pos_or_zero with h' | rfl
  · exact h'
  · simp [area] at h

/-! ## Turns of points -/

/-- Twice the signed area of the triangle. -/
def det3 (a b c : Vec F 2) : F := area (b - a) (c - a)

theorem strictLeft_iff {a b c : Vec F 2} : StrictLeft a b c ↔ 0 < det3 a b c := Iff.rfl
theorem leftOrOn_iff {a b c : Vec F 2} : LeftOrOn a b c ↔ 0 ≤ det3 a b c := Iff.rfl

theorem det3_rot (a b c : Vec F 2) : det3 a b c = det3 b c a := by
  simp [det3, area]; ring

theorem det3_swap (a b c : Vec F 2) : det3 a b c = -det3 b a c := by
  simp [det3, area]; ring

theorem det3_neg (a b c : Vec F 2) : det3 (-a) (-b) (-c) = det3 a b c := by
  simp [det3, area]; ring

@[simp] theorem det3_self_left (a c : Vec F 2) : det3 a a c = 0 := by simp [det3, area]
@[simp] theorem det3_self_right (a c : Vec F 2) : det3 a c c = 0 := by simp [det3, area]; ring
@[simp] theorem det3_self_mid (a c : Vec F 2) : det3 a c a = 0 := by simp [det3, area]

theorem ofSign_right (x : F) : Turn.ofSign x = .right ↔ 0 < x := by
  unfold Turn.ofSign
  rcases lt_trichotomy x 0 with h | h | h
  · simp [h, h.le]
  · simp [h]
  · simp [h, h.le, not_lt.2 h.le]

theorem rightTurn_iff (p q o : Vec F 2) : rightTurn p q o = true ↔ 0 < det3 o q p := by
  rw [rightTurn, decide_eq_true_iff, orientation3, orientation, ofSign_right, det3]

/-- `p` before `t`, both seen from the edge `s t` that turns to `q`: `p` is on the left of
`t q`. -/
theorem behind {s t p q : Vec F 2} (hst : key s ≤ key t) (hpt : key p ≤ key t)
    (htq : key t ≤ key q) (h1 : 0 ≤ det3 s t p) (h2 : 0 < det3 s t q) : 0 ≤ det3 t q p := by
  rw [key_le_iff] at hst hpt htq
  have e : 0 < area (t - s) (q - t) := by
    have : det3 s t q = area (t - s) (q - t) := by simp [det3, area]; ring
    rwa [this] at h2
  have he := lexPos_of_area_left hst e
  have h1' : 0 ≤ area (t - p) (t - s) := by
    have : det3 s t p = area (t - p) (t - s) := by simp [det3, area]; ring
    rwa [this] at h1
  have := area_trans hpt he htq h1' e.le
  have e2 : det3 t q p = area (t - p) (q - t) := by simp [det3, area]; ring
  rwa [e2]

theorem behind_strict {s t p q : Vec F 2} (hst : key s ≤ key t) (hpt : key p < key t)
    (htq : key t ≤ key q) (h1 : 0 ≤ det3 s t p) (h2 : 0 < det3 s t q) : 0 < det3 t q p := by
  rw [key_le_iff] at hst htq
  rw [key_lt_iff] at hpt
  have e : 0 < area (t - s) (q - t) := by
    have : det3 s t q = area (t - s) (q - t) := by simp [det3, area]; ring
    rwa [this] at h2
  have he := lexPos_of_area_left hst e
  have h1' : 0 ≤ area (t - p) (t - s) := by
    have : det3 s t p = area (t - p) (t - s) := by simp [det3, area]; ring
    rwa [this] at h1
  have := area_trans_left hpt he htq h1' e
  have e2 : det3 t q p = area (t - p) (q - t) := by simp [det3, area]; ring
  rwa [e2]

/-- `u` was popped from above `t`: what is on the left of `t u` is on the left of `t q`. -/
theorem ahead {t u p q : Vec F 2} (htu : key t < key u) (htq : key t ≤ key q)
    (htp : key t ≤ key p) (h1 : det3 t u q ≤ 0) (h2 : 0 ≤ det3 t u p) : 0 ≤ det3 t q p := by
  rw [key_le_iff] at htq htp
  rw [key_lt_iff] at htu
  refine area_trans htq htu htp ?_ h2
  have : area (q - t) (u - t) = -det3 t u q := by simp [det3, area]; ring
  rw [this]; linarith

/-- Left of the next edge and further is left of this edge. -/
theorem further {r s t q : Vec F 2} (hrs : key r ≤ key s) (hst : key s ≤ key t)
    (hsq : key s ≤ key q) (h1 : 0 < det3 r s t) (h2 : 0 < det3 s t q) : 0 < det3 r s q := by
  rw [key_le_iff] at hrs hst hsq
  have e1 : 0 < area (s - r) (t - s) := by
    have : det3 r s t = area (s - r) (t - s) := by simp [det3, area]; ring
    rwa [this] at h1
  have := area_trans_right hrs (lexPos_of_area_right hst e1) (lexPos_of_area_right hsq h2) e1 h2.le
  have e : det3 r s q = area (s - r) (q - s) := by simp [det3, area]; ring
  rwa [e]

/-- A point on the left of `a b`, between the two, is on the left of every edge that has both on
its left. -/
theorem between_left {a b s t p : Vec F 2} (hab : key a < key b) (hst : key s ≤ key t)
    (hap : key a ≤ key p) (hpb : key p ≤ key b) (ha : 0 ≤ det3 s t a) (hb : 0 ≤ det3 s t b)
    (hp : 0 ≤ det3 a b p) : 0 ≤ det3 s t p := by
  rw [key_le_iff] at hst hap hpb
  rw [key_lt_iff] at hab
  rcases le_total 0 (area (t - s) (b - a)) with h | h
  · have := area_trans hst hab hap h hp
    have e : det3 s t p = area (t - s) (p - a) + det3 s t a := by simp [det3, area]; ring
    rw [e]; linarith
  · have h1 : 0 ≤ area (b - a) (t - s) := by
      have : area (b - a) (t - s) = -area (t - s) (b - a) := by simp [area]; ring
      rw [this]; linarith
    have h2 : 0 ≤ area (b - p) (b - a) := by
      have : det3 a b p = area (b - p) (b - a) := by simp [det3, area]; ring
      rwa [this] at hp
    have := area_trans hpb hab hst h2 h1
    have e : det3 s t p = area (b - p) (t - s) + det3 s t b := by simp [det3, area]; ring
    rw [e]; linarith

/-- The turn at the lexicographic maximum `b`: from a point `s` not above the chord `a b` to a
point `p` above it. -/
theorem turn_at_max {a b s p : Vec F 2} (hab : key a < key b) (hsb : key s < key b)
    (hpb : key p ≤ key b) (hs : det3 a b s ≤ 0) (hp : 0 < det3 a b p) : 0 < det3 s b p := by
  rw [key_lt_iff] at hab hsb
  rw [key_le_iff] at hpb
  have h1 : 0 < area (b - p) (b - a) := by
    have : det3 a b p = area (b - p) (b - a) := by simp [det3, area]; ring
    rwa [this] at hp
  have h2 : 0 ≤ area (b - a) (b - s) := by
    have : area (b - a) (b - s) = -det3 a b s := by simp [det3, area]; ring
    rw [this]; linarith
  have := area_trans_right hpb hab hsb h1 h2
  have e : det3 s b p = area (b - p) (b - s) := by simp [det3, area]; ring
  rwa [e]

theorem key_neg_le {p q : Vec F 2} : key (-p) ≤ key (-q) ↔ key q ≤ key p := by
  rw [key_le_iff, key_le_iff]
  have : -q - -p = p - q := by abel
  rw [this]

theorem key_neg_lt {p q : Vec F 2} : key (-p) < key (-q) ↔ key q < key p := by
  rw [key_lt_iff, key_lt_iff]
  have : -q - -p = p - q := by abel
  rw [this]

/-! ## The stack -/

/-- `pop` on the stack, top first. -/
def popStack (p : Vec F 2) : List (Vec F 2) → List (Vec F 2)
  | t :: s :: rest => if rightTurn p t s then t :: s :: rest else popStack p (s :: rest)
  | st => st

/-- One step of the loop on the stack. -/
def push (st : List (Vec F 2)) (p : Vec F 2) : List (Vec F 2) := p :: popStack p st

theorem popStack_ne_nil (p : Vec F 2) : ∀ {st : List (Vec F 2)}, st ≠ [] → popStack p st ≠ []
  | [], h => absurd rfl h
  | [t], _ => by simp [popStack]
  | t :: s :: rest, _ => by
    rw [popStack]
    split
    · simp
    · exact popStack_ne_nil p (by simp)

/-- What is left after popping: a suffix; the last popped point did not turn; the top does. -/
theorem popStack_spec (q : Vec F 2) : ∀ st : List (Vec F 2), st ≠ [] →
    ∃ X t Y, st = X ++ t :: Y ∧ popStack q st = t :: Y ∧
      (∀ u X', X = X' ++ [u] → det3 t u q ≤ 0) ∧ (∀ s Y', Y = s :: Y' → 0 < det3 s t q)
  | [], h => absurd rfl h
  | [t], _ => ⟨[], t, [], rfl, by simp [popStack], by simp, by simp⟩
  | t :: s :: rest, _ => by
    by_cases h : rightTurn q t s = true
    · refine ⟨[], t, s :: rest, rfl, by simp [popStack, h], by simp, ?_⟩
      intro s' Y' e
      obtain ⟨rfl, rfl⟩ := List.cons.inj e
      exact (rightTurn_iff _ _ _).1 h
    · obtain ⟨X, t', Y, e1, e2, h3, h4⟩ := popStack_spec q (s :: rest) (by simp)
      refine ⟨t :: X, t', Y, by rw [e1]; rfl, by rw [popStack, if_neg h, e2], ?_, h4⟩
      intro u X' e
      cases X' with
      | nil =>
        obtain ⟨rfl, rfl⟩ := List.cons.inj e
        obtain ⟨rfl, rfl⟩ := List.cons.inj e1
        rw [rightTurn_iff] at h
        exact not_lt.1 h
      | cons x X' =>
        obtain ⟨-, e⟩ := List.cons.inj e
        exact h3 u X' e

/-- The chain (top first) over the points `done`, all at or after `base`. -/
structure Chain (base : Vec F 2) (st done : List (Vec F 2)) : Prop where
  sub : ∀ p ∈ st, p ∈ done
  bottom : st.getLast? = some base
  low : ∀ p ∈ done, key base ≤ key p
  high : ∀ t Y, st = t :: Y → ∀ p ∈ done, key p ≤ key t
  sorted : st.Pairwise fun t s => key s ≤ key t
  convex : ∀ X t s Y, st = X ++ t :: s :: Y → ∀ p ∈ X, 0 < det3 s t p
  cover : ∀ X t s Y, st = X ++ t :: s :: Y → ∀ p ∈ done, 0 ≤ det3 s t p

theorem chain_single (a : Vec F 2) : Chain a [a] [a] where
  sub := by simp
  bottom := rfl
  low := by simp
  high := by simp
  sorted := by simp
  convex := by
    intro X t s Y e
    have := congrArg List.length e
    simp at this; omega
  cover := by
    intro X t s Y e
    have := congrArg List.length e
    simp at this; omega

theorem Chain.ne_nil {base : Vec F 2} {st done} (h : Chain base st done) : st ≠ [] := by
  intro e; have := h.bottom; simp [e] at this

/-- One more point, at or after all the others. -/
theorem Chain.push {base : Vec F 2} {st done} (h : Chain base st done) {q : Vec F 2}
    (hq : ∀ p ∈ done, key p ≤ key q) : Chain base (push st q) (q :: done) := by
  obtain ⟨X, t, Y, e1, e2, h3, h4⟩ := popStack_spec q st h.ne_nil
  have hsuf : ∀ p ∈ t :: Y, p ∈ done := fun p hp =>
    h.sub p (by rw [e1]; exact List.mem_append_right _ hp)
  have hbot : (t :: Y).getLast? = some base := by
    rw [← h.bottom, e1, List.getLast?_append]
    cases hh : (t :: Y).getLast? with
    | none => simp at hh
    | some z => rfl
  have hbase : base ∈ done := hsuf base (List.mem_of_getLast? hbot)
  have hsorted : (t :: Y).Pairwise fun t s => key s ≤ key t := by
    have := h.sorted; rw [e1] at this
    exact (List.pairwise_append.1 this).2.1
  -- the new point turns strictly at every surviving edge
  have hstrict : ∀ (Z : List (Vec F 2)) (u s : Vec F 2) (W : List (Vec F 2)),
      t :: Y = Z ++ u :: s :: W → 0 < det3 s u q := by
    intro Z
    induction Z using List.reverseRecOn with
    | nil =>
      intro u s W e
      obtain ⟨rfl, rfl⟩ := List.cons.inj e
      exact h4 _ _ rfl
    | append_singleton Z r ih =>
      intro u s W e
      have e' : t :: Y = Z ++ r :: u :: s :: W := by rw [e]; simp
      have i1 := ih r u (s :: W) e'
      have hall := hsorted
      rw [e] at hall
      have hus : key s ≤ key u := by
        have := (List.pairwise_append.1 hall).2.1
        exact (List.pairwise_cons.1 this).1 s (by simp)
      have hru : key u ≤ key r :=
        (List.pairwise_append.1 hall).2.2 r (by simp) u (by simp)
      have hc : 0 < det3 s u r :=
        h.convex (X ++ Z ++ [r]) u s W (by rw [e1, e]; simp) r (by simp)
      exact further hus hru (hq u (hsuf u (by rw [e]; simp))) hc i1
  -- everything is on the left of the new edge
  have hnew : ∀ p ∈ done, 0 ≤ det3 t q p := by
    intro p hp
    have htq : key t ≤ key q := hq t (hsuf t (by simp))
    rcases le_total (key p) (key t) with hpt | hpt
    · cases Y with
      | nil =>
        have : base = t := by simpa using hbot.symm
        subst this
        have : p = base := key_inj.1 (le_antisymm hpt (h.low p hp))
        subst this; simp
      | cons s Y' =>
        exact behind ((List.pairwise_cons.1 hsorted).1 s (by simp)) hpt htq
          (h.cover X t s Y' e1 p hp) (h4 s Y' rfl)
    · rcases List.eq_nil_or_concat X with hX | ⟨X', u, hX⟩
      · subst hX
        have : p = t := key_inj.1 (le_antisymm (h.high t Y e1 p hp) hpt)
        subst this; simp
      · rw [List.concat_eq_append] at hX
        have e1' : st = X' ++ u :: t :: Y := by rw [e1, hX]; simp
        have hall := h.sorted
        rw [e1'] at hall
        have htu : key t ≤ key u :=
          (List.pairwise_cons.1 (List.pairwise_append.1 hall).2.1).1 t (by simp)
        rcases htu.lt_or_eq with htu | htu
        · exact ahead htu htq hpt (h3 u X' hX) (h.cover X' u t Y e1' p hp)
        · have htu := key_inj.1 htu
          subst htu
          -- a repeated point can only be at the top, so it bounds all the others
          have hX' : X' = [] := by
            rcases List.eq_nil_or_concat X' with h' | ⟨X'', w, h'⟩
            · exact h'
            · have := h.convex X' t t Y e1' w (by rw [h']; simp)
              simp at this
          subst hX'
          have : p = t := key_inj.1 (le_antisymm (h.high t _ e1' p hp) hpt)
          subst this; simp
  have e2' : Geo.push st q = q :: t :: Y := by rw [Geo.push, e2]
  rw [e2']
  refine ⟨?_, ?_, ?_, ?_, ?_, ?_, ?_⟩
  · intro p hp
    rcases List.mem_cons.1 hp with rfl | hp
    · simp
    · exact List.mem_cons_of_mem _ (hsuf p hp)
  · rw [List.getLast?_cons_cons]; exact hbot
  · intro p hp
    rcases List.mem_cons.1 hp with rfl | hp
    · exact hq base hbase
    · exact h.low p hp
  · intro t' Y' e p hp
    obtain ⟨rfl, -⟩ := List.cons.inj e
    rcases List.mem_cons.1 hp with rfl | hp
    · exact le_rfl
    · exact hq p hp
  · exact List.pairwise_cons.2 ⟨fun s hs => hq s (hsuf s hs), hsorted⟩
  · intro Z u s W e p hp
    cases Z with
    | nil => simp at hp
    | cons z Z =>
      obtain ⟨rfl, e'⟩ := List.cons.inj e
      have e'' : t :: Y = Z ++ u :: s :: W := e'
      rcases List.mem_cons.1 hp with rfl | hp
      · exact hstrict Z u s W e'
      · exact h.convex (X ++ Z) u s W (by rw [e1, e'']; simp) p (by simp [hp])
  · intro Z u s W e p hp
    cases Z with
    | nil =>
      obtain ⟨rfl, e'⟩ := List.cons.inj e
      obtain ⟨rfl, rfl⟩ := List.cons.inj e'
      rcases List.mem_cons.1 hp with rfl | hp
      · simp
      · exact hnew p hp
    | cons z Z =>
      obtain ⟨rfl, e'⟩ := List.cons.inj e
      have e'' : t :: Y = Z ++ u :: s :: W := e'
      rcases List.mem_cons.1 hp with rfl | hp
      · exact (hstrict Z u s W e').le
      · exact h.cover (X ++ Z) u s W (by rw [e1, e'']; simp) p hp

/-- A whole sorted list. -/
theorem Chain.run {base : Vec F 2} : ∀ (l : List (Vec F 2)) {st done}, Chain base st done →
    (∀ p ∈ done, ∀ q ∈ l, key p ≤ key q) → l.Pairwise (fun p q => key p ≤ key q) →
    Chain base (l.foldl Geo.push st) (l.reverse ++ done)
  | [], st, done, h, _, _ => by simpa using h
  | q :: l, st, done, h, h1, h2 => by
    have h2' := List.pairwise_cons.1 h2
    have := Chain.run l (h.push fun p hp => h1 p hp q (by simp)) (by
      intro p hp r hr
      rcases List.mem_cons.1 hp with rfl | hp
      · exact h2'.1 r hr
      · exact h1 p hp r (List.mem_cons_of_mem _ hr)) h2'.2
    simpa using this

end Actl.Geo
