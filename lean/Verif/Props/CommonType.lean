import Verif.Model.CommonType
import Verif.Props.Algebra

/-! # C94: common types, the policy of promotion, and the common value -/

namespace Actl.CommonType

open Equality (IntTy Elem promote common convert)
open Algebra (castTo Ok Proper)

/-! ### `strict_common_type` -/

private theorem make_eq {t u : Ty} (h : t.make = some u) : u = t := by
  cases t with
  | constant v => cases h; rfl
  | other n d => cases d <;> cases h; rfl

private theorem make_constant {t : Ty} (h : t.isConstant = true) : t.make = some t := by
  cases t with
  | constant v => rfl
  | other n d => cases h

/-- Constants do not matter if there are other types; if there are not, the first type it is. -/
theorem strictCommon_constants (t : Ty) (ts : List Ty) (h : ∀ u ∈ t :: ts, u.isConstant = true) :
    strictCommon (t :: ts) = some t := by
  show strictFrom t ts = some t
  induction ts with
  | nil => rfl
  | cons u us ih =>
    have hu := h u (by simp)
    have ht := h t (by simp)
    simp only [strictFrom, strict2, hu, if_true, make_constant ht, Option.bind_some]
    exact ih fun v hv => h v (by simp at hv ⊢; tauto)

private theorem strictFrom_const {c : Int} {ts : List Ty} {n : Nat}
    (h1 : Ty.other n true ∈ ts) (h2 : ∀ u ∈ ts, u.isConstant = true ∨ u = .other n true) (t : Ty)
    (ht : t = .constant c ∨ t = .other n true) : strictFrom t ts = some (.other n true) ∨ False := by
  left
  have key : ∀ us : List Ty, (∀ u ∈ us, u.isConstant = true ∨ u = .other n true) →
      strictFrom (.other n true) us = some (.other n true) := by
    intro us hus
    induction us with
    | nil => rfl
    | cons u us ih =>
      have e : strict2 (.other n true) u = some (.other n true) := by
        rcases hus u (by simp) with h | h
        · simp [strict2, h, Ty.make]
        · subst h; simp [strict2, Ty.isConstant, Ty.make]
      simp only [strictFrom, e, Option.bind_some]
      exact ih fun v hv => hus v (by simp [hv])
  rcases ht with rfl | rfl
  · induction ts with
    | nil => simp at h1
    | cons u us ih =>
      rcases h2 u (by simp) with h | h
      · have e : strict2 (.constant c) u = some (.constant c) := by simp [strict2, h, Ty.make]
        simp only [strictFrom, e, Option.bind_some]
        refine ih ?_ fun v hv => h2 v (by simp [hv])
        rcases List.mem_cons.1 h1 with h' | h'
        · subst h'; cases h
        · exact h'
      · subst h
        have e : strict2 (.constant c) (.other n true) = some (.other n true) := by
          simp [strict2, Ty.isConstant, Ty.make]
        simp only [strictFrom, e, Option.bind_some]
        exact key us fun v hv => h2 v (by simp [hv])
  · exact key ts h2

/-- If the types other than constants are all the same, and have a default constructor, it is this type, wherever
the constants are. -/
theorem strictCommon_other (ts : List Ty) (n : Nat) (h1 : Ty.other n true ∈ ts)
    (h2 : ∀ u ∈ ts, u.isConstant = true ∨ u = .other n true) : strictCommon ts = some (.other n true) := by
  cases ts with
  | nil => simp at h1
  | cons t ts =>
    show strictFrom t ts = _
    rcases h2 t (by simp) with h | h
    · cases t with
      | other _ _ => cases h
      | constant c =>
        refine (strictFrom_const (c := c) ?_ (fun u hu => h2 u (by simp [hu])) _ (Or.inl rfl)).resolve_right id
        simpa using h1
    · subst h
      by_cases hm : Ty.other n true ∈ ts
      · exact (strictFrom_const (c := 0) hm (fun u hu => h2 u (by simp [hu])) _ (Or.inr rfl)).resolve_right id
      · have hc : ∀ u ∈ ts, u.isConstant = true := fun u hu => by
          rcases h2 u (by simp [hu]) with h | h
          · exact h
          · subst h; exact absurd hu hm
        clear h1 h2 hm
        induction ts with
        | nil => rfl
        | cons u us ih =>
          have e : strict2 (.other n true) u = some (.other n true) := by
            simp [strict2, hc u (by simp), Ty.make]
          simp only [strictFrom, e, Option.bind_some]
          exact ih fun v hv => hc v (by simp [hv])

private theorem strictFrom_mem {t v : Ty} {ts : List Ty} (h : strictFrom t ts = some v) :
    (∀ u ∈ t :: ts, u.isConstant = false → u = v) ∧ v ∈ t :: ts := by
  induction ts generalizing t with
  | nil =>
    cases h
    simp
  | cons u us ih =>
    simp only [strictFrom] at h
    cases hm : strict2 t u with
    | none => rw [hm] at h; cases h
    | some w =>
      rw [hm] at h
      obtain ⟨h1, h2⟩ := ih h
      have hw : (w = t ∧ (u.isConstant = true ∨ u = t)) ∨ (w = u ∧ t.isConstant = true) := by
        unfold strict2 at hm
        by_cases hu : u.isConstant = true
        · rw [if_pos hu] at hm; exact Or.inl ⟨make_eq hm, Or.inl hu⟩
        · rw [if_neg hu] at hm
          by_cases ht : t.isConstant = true
          · rw [if_pos ht] at hm; exact Or.inr ⟨make_eq hm, ht⟩
          · rw [if_neg ht] at hm
            by_cases e : t = u
            · rw [if_pos e] at hm; exact Or.inl ⟨make_eq hm, Or.inr e.symm⟩
            · rw [if_neg e] at hm; cases hm
      have mem : w = t ∨ w = u := by tauto
      refine ⟨fun x hx hc => ?_, ?_⟩
      · rcases List.mem_cons.1 hx with rfl | hx
        · rcases hw with ⟨rfl, _⟩ | ⟨_, hc'⟩
          · exact h1 _ (by simp) hc
          · rw [hc] at hc'; cases hc'
        · rcases List.mem_cons.1 hx with rfl | hx
          · rcases hw with ⟨rfl, hc' | rfl⟩ | ⟨rfl, _⟩
            · rw [hc] at hc'; cases hc'
            · exact h1 _ (by simp) hc
            · exact h1 _ (by simp) hc
          · exact h1 x (by simp [hx]) hc
      · rcases List.mem_cons.1 h2 with rfl | h2
        · rcases mem with rfl | rfl <;> simp
        · simp [h2]

/-- What it provides is one of the types, and every type that is not a constant is that one: it never compiles
for two such types. -/
theorem strictCommon_sound {ts : List Ty} {v : Ty} (h : strictCommon ts = some v) :
    v ∈ ts ∧ ∀ u ∈ ts, u.isConstant = false → u = v := by
  cases ts with
  | nil => cases h
  | cons t ts => exact ⟨(strictFrom_mem h).2, (strictFrom_mem h).1⟩

private theorem strict2_made {t u w : Ty} (h : strict2 t u = some w) : w.make = some w := by
  unfold strict2 at h
  split_ifs at h <;> (have e := make_eq h; subst e; exact h)

private theorem strictFrom_made {t v : Ty} {us : List Ty} (ht : t.make = some t) (h : strictFrom t us = some v) :
    v.make = some v := by
  induction us generalizing t with
  | nil => cases h; exact ht
  | cons u us ih =>
    simp only [strictFrom, Option.bind_eq_some_iff] at h
    obtain ⟨w, h1, h2⟩ := h
    exact ih (strict2_made h1) h2

private theorem strictCommon_made {ts : List Ty} {v : Ty} (hd : 2 ≤ ts.length) (h : strictCommon ts = some v) :
    v.make = some v := by
  match ts, hd with
  | t :: u :: us, _ =>
    have h : strictFrom t (u :: us) = some v := h
    simp only [strictFrom, Option.bind_eq_some_iff] at h
    obtain ⟨w, h1, h2⟩ := h
    exact strictFrom_made (strict2_made h1) h2

/-- Two or more types one of which has no default constructor never compile, although they may be all the same. -/
theorem strictCommon_unconstructible_fails (ts : List Ty) (n : Nat) (h : Ty.other n false ∈ ts)
    (hd : 2 ≤ ts.length) : strictCommon ts = none := by
  cases hr : strictCommon ts with
  | none => rfl
  | some v =>
    have e := (strictCommon_sound hr).2 _ h rfl
    subst e
    cases strictCommon_made hd hr

/-- The order does not matter if not all types are constants. -/
theorem strictCommon_perm {ts us : List Ty} (hp : ts.Perm us) {v : Ty} (h : strictCommon ts = some v)
    (hv : v.isConstant = false) : strictCommon us = some v := by
  by_cases hd : 2 ≤ ts.length
  · obtain ⟨h1, h2⟩ := strictCommon_sound h
    cases v with
    | constant _ => cases hv
    | other n d =>
      cases d with
      | false => cases strictCommon_made hd h
      | true =>
        refine strictCommon_other us n (hp.subset h1) fun u hu => ?_
        by_cases hc : u.isConstant = true
        · exact Or.inl hc
        · exact Or.inr (h2 u (hp.symm.subset hu) (by simpa using hc))
  · cases ts with
    | nil => cases h
    | cons t ts =>
      cases ts with
      | nil => rw [List.perm_singleton.1 hp.symm]; exact h
      | cons u ts => simp at hd

example : strictCommon [.constant 0, .other 3 true, .constant 1, .other 3 true] = some (.other 3 true) :=
  strictCommon_other _ 3 (by decide) (by decide)
example : strictCommon [.constant 1, .constant 0, .constant 0] = some (.constant 1) :=
  strictCommon_constants _ _ (by decide)
example : strictCommon [.other 3 true, .other 4 true] = none := by decide
example : strictCommon [.other 3 false, .other 3 false] = none :=
  strictCommon_unconstructible_fails _ 3 (by decide) (by decide)

/-! ### `common` -/

private theorem common2_iff (x y z : Arg) : common2 x y = some z ↔ x = z ∧ y = z := by
  cases x with
  | nothing =>
    cases y with
    | nothing => simp [common2, eq_comm]
    | num y => simp [common2]; rintro rfl; simp
  | num x =>
    cases y with
    | nothing => simp [common2]; rintro rfl; simp
    | num y =>
      obtain ⟨t, v⟩ := x
      obtain ⟨u, w⟩ := y
      by_cases h1 : t = u
      · by_cases h2 : v = w
        · subst h1 h2; simp [common2]
        · simp only [common2, h1, h2, if_true, if_false, reduceCtorEq, false_iff]
          rintro ⟨rfl, h⟩
          simp only [Arg.num.injEq, Elem.mk.injEq] at h
          exact h2 h.2.symm
      · simp only [common2, h1, if_false, reduceCtorEq, false_iff]
        rintro ⟨rfl, h⟩
        simp only [Arg.num.injEq, Elem.mk.injEq] at h
        exact h1 h.1.symm

/-- `common` of any number of arguments is defined exactly if they are all the same, and is what they are. -/
theorem commonValue_iff (xs : List Arg) (z : Arg) : commonValue xs = some z ↔ xs ≠ [] ∧ ∀ x ∈ xs, x = z := by
  cases xs with
  | nil => simp [commonValue]
  | cons x xs =>
    show commonFrom x xs = some z ↔ _
    induction xs generalizing x with
    | nil => simp [commonFrom]
    | cons y ys ih =>
      simp only [commonFrom, Option.bind_eq_some_iff]
      constructor
      · rintro ⟨w, h1, h2⟩
        obtain ⟨rfl, rfl⟩ := (common2_iff x y w).1 h1
        have := ((ih y).1 h2).2
        refine ⟨by simp, fun u hu => ?_⟩
        simp only [List.mem_cons] at hu
        rcases hu with rfl | rfl | hu
        · exact this _ (by simp)
        · exact this _ (by simp)
        · exact this u (by simp [hu])
      · rintro ⟨-, h⟩
        have hx := h x (by simp)
        have hy := h y (by simp)
        subst hx
        exact ⟨x, (common2_iff x y x).2 ⟨rfl, hy⟩, (ih x).2 ⟨by simp, fun u hu => by
          simp only [List.mem_cons] at hu
          rcases hu with rfl | hu
          · rfl
          · exact h u (by simp [hu])⟩⟩

/-- `common` is associative and commutative as declared: the order and grouping of the arguments do not matter. -/
theorem commonValue_perm {xs ys : List Arg} (h : xs.Perm ys) : commonValue xs = commonValue ys := by
  refine Option.ext fun z => ?_
  rw [commonValue_iff, commonValue_iff]
  constructor
  · rintro ⟨h1, h2⟩
    exact ⟨fun e => h1 (by subst e; exact h.eq_nil), fun x hx => h2 x (h.symm.subset hx)⟩
  · rintro ⟨h1, h2⟩
    exact ⟨fun e => h1 (by subst e; exact h.nil_eq.symm), fun x hx => h2 x (h.subset hx)⟩

theorem commonValue_group (xs ys : List Arg) (hx : xs ≠ []) (hy : ys ≠ []) :
    ((commonValue xs).bind fun x => (commonValue ys).bind fun y => commonValue [x, y]) = commonValue (xs ++ ys) := by
  refine Option.ext fun z => ?_
  simp only [Option.bind_eq_some_iff, commonValue_iff, List.mem_append]
  constructor
  · rintro ⟨x, ⟨-, h1⟩, y, ⟨-, h2⟩, -, h3⟩
    have e1 := h3 x (by simp)
    have e2 := h3 y (by simp)
    subst e1 e2
    exact ⟨by simp [hx], fun u hu => hu.elim (h1 u) (h2 u)⟩
  · rintro ⟨-, h⟩
    exact ⟨z, ⟨hx, fun u hu => h u (Or.inl hu)⟩, z, ⟨hy, fun u hu => h u (Or.inr hu)⟩, by simp, by simp⟩

/-- The identity element of `common` cannot be combined with any number. -/
theorem commonIdentity_fails (x : Elem) :
    commonValue [commonIdentity, .num x] = none ∧ commonValue [.num x, commonIdentity] = none := ⟨rfl, rfl⟩

/-- Equal numbers of two types do not compile without `allow_promotion`. -/
theorem commonValue_mixed_fails (x y : Elem) (h : x.ty ≠ y.ty) : commonValue [.num x, .num y] = none := by
  show (common2 (.num x) (.num y)).bind _ = none
  simp [common2, h]

example : commonValue [.num ⟨⟨32, true⟩, 2⟩, .num ⟨⟨32, true⟩, 2⟩, .num ⟨⟨32, true⟩, 2⟩] = some (.num ⟨⟨32, true⟩, 2⟩) :=
  (commonValue_iff _ _).2 (by decide)
example : commonValue [.num ⟨⟨32, true⟩, 2⟩, .num ⟨⟨32, true⟩, 3⟩] = none := by decide
example : commonValue [.num ⟨⟨32, true⟩, 2⟩, .num ⟨⟨64, true⟩, 2⟩] = none :=
  commonValue_mixed_fails _ _ (by decide)

/-! ### Conversions -/

private theorem pow_le2 {a b : Nat} (h : a ≤ b) : (2 ^ a : Int) ≤ 2 ^ b := pow_le_pow_right₀ (by norm_num) h

private theorem pow_half {n : Nat} (h : 0 < n) : (2 ^ n : Int) = 2 * 2 ^ (n - 1) := by
  obtain ⟨m, rfl⟩ : ∃ m, n = m + 1 := ⟨n - 1, by omega⟩
  simp [pow_succ]; ring

private theorem cast_valid {t : IntTy} (ht : Proper t) (x : Int) : (⟨t, castTo t x⟩ : Elem).Valid := by
  unfold Elem.Valid castTo
  have h3 := pow_half ht.1
  have pos : (0 : Int) < 2 ^ t.bits := by positivity
  by_cases h1 : t.bits = 1
  · have hs : ¬ t.signed = true := fun hs => by have := ht.2 hs; omega
    simp only [h1, if_true, hs, Bool.false_eq_true, if_false]
    split_ifs <;> norm_num
  · simp only [h1, if_false]
    have a1 := Int.emod_nonneg (x + 2 ^ (t.bits - 1)) pos.ne'
    have a2 := Int.emod_lt_of_pos (x + 2 ^ (t.bits - 1)) pos
    have a3 := Int.emod_nonneg x pos.ne'
    have a4 := Int.emod_lt_of_pos x pos
    split_ifs <;> constructor <;> linarith

private theorem cast_modEq {t : IntTy} (h1 : t.bits ≠ 1) (x : Int) : castTo t x ≡ x [ZMOD 2 ^ t.bits] := by
  unfold castTo
  simp only [h1, if_false]
  split_ifs
  · have := (Int.mod_modEq (x + 2 ^ (t.bits - 1)) (2 ^ t.bits)).sub_right (2 ^ (t.bits - 1))
    simpa using this
  · exact Int.mod_modEq _ _

private theorem valid_unique {t : IntTy} (h0 : 0 < t.bits) {x y : Int} (hx : (⟨t, x⟩ : Elem).Valid)
    (hy : (⟨t, y⟩ : Elem).Valid) (h : x ≡ y [ZMOD 2 ^ t.bits]) : x = y := by
  have h3 := pow_half h0
  unfold Elem.Valid at hx hy
  obtain ⟨k, hk⟩ := h.dvd
  have pos : (0 : Int) < 2 ^ (t.bits - 1) := by positivity
  have : k = 0 := by
    by_contra hc
    have : k ≤ -1 ∨ 1 ≤ k := by omega
    rw [h3] at hk
    simp only [h3] at hx hy
    generalize (2 : Int) ^ (t.bits - 1) = M at *
    split_ifs at hx hy <;> rcases this with h | h <;> nlinarith [hx.1, hx.2, hy.1, hy.2]
  subst this
  linarith

private theorem cast_self {t : IntTy} (ht : Proper t) {x : Int} (hx : (⟨t, x⟩ : Elem).Valid) : castTo t x = x := by
  by_cases h1 : t.bits = 1
  · have hs : ¬ t.signed = true := fun hs => by have := ht.2 hs; omega
    unfold Elem.Valid at hx
    simp only [hs, Bool.false_eq_true, if_false, h1, pow_one] at hx
    unfold castTo
    simp only [h1, if_true]
    split_ifs <;> omega
  · exact valid_unique ht.1 (cast_valid ht x) hx (cast_modEq h1 x)

/-! ### The common type of several types -/

/-- Every value of the first type is one of the second, or the second is unsigned and no narrower. -/
private def Emb (a t : IntTy) : Prop := a.bits ≤ t.bits ∧ (t.signed = true → a.signed = false → a.bits < t.bits)

private theorem emb_common_left {a s t : IntTy} (h : Emb a s) : Emb a (common s t) := by
  obtain ⟨m, sa⟩ := a
  obtain ⟨n, ss⟩ := s
  obtain ⟨k, st⟩ := t
  unfold Emb at *
  cases sa <;> cases ss <;> cases st <;> simp_all [common] <;> (try split_ifs) <;> simp_all <;> omega

private theorem common_comm2 (s t : IntTy) : common s t = common t s := by
  obtain ⟨m, s⟩ := s
  obtain ⟨n, t⟩ := t
  cases s <;> cases t <;> simp [common, max_comm]

private theorem emb_promote {a s : IntTy} (h : Emb a s) : Emb a (promote s) := by
  obtain ⟨m, sa⟩ := a
  obtain ⟨n, ss⟩ := s
  unfold Emb promote at *
  split_ifs with h1
  · simp only at *
    exact ⟨by omega, fun _ _ => by omega⟩
  · exact h

private theorem emb_refl (a : IntTy) : Emb a a := ⟨le_rfl, fun h1 h2 => by rw [h1] at h2; cases h2⟩

private theorem emb_step {a s t : IntTy} (h : Emb a s ∨ a = t) : Emb a (commonType2 s t) := by
  unfold commonType2
  split_ifs with hst
  · rcases h with h | rfl
    · exact h
    · subst hst; exact emb_refl _
  · rcases h with h | rfl
    · exact emb_common_left (emb_promote h)
    · rw [common_comm2]
      exact emb_common_left (emb_promote (emb_refl _))

private theorem emb_foldl {a s : IntTy} {ts : List IntTy} (h : Emb a s ∨ a ∈ ts) :
    Emb a (ts.foldl commonType2 s) := by
  induction ts generalizing s with
  | nil => simpa using h
  | cons t ts ih =>
    refine ih ?_
    rcases h with h | h
    · exact Or.inl (emb_step (Or.inl h))
    · rcases List.mem_cons.1 h with rfl | h
      · exact Or.inl (emb_step (Or.inr rfl))
      · exact Or.inr h

private theorem proper_promote {t : IntTy} (h : Proper t) : Proper (promote t) := by
  unfold promote; split_ifs
  · exact ⟨by simp, fun _ => by simp⟩
  · exact h

private theorem promote_wide2 (t : IntTy) : 32 ≤ (promote t).bits := by
  unfold promote; split_ifs <;> simp_all

private theorem common_wide2 (s t : IntTy) (hs : 32 ≤ s.bits) (ht : 32 ≤ t.bits) : 32 ≤ (common s t).bits := by
  unfold common; dsimp only; split_ifs <;> first | assumption | simp_all

private theorem commonType2_proper {s t : IntTy} (hs : Proper s) : Proper (commonType2 s t) := by
  unfold commonType2
  split_ifs
  · exact hs
  · have := common_wide2 _ _ (promote_wide2 s) (promote_wide2 t)
    exact ⟨by omega, fun _ => by omega⟩

private theorem commonType2_bool {s t : IntTy} (h : (commonType2 s t).bits = 1) : s = t := by
  unfold commonType2 at h
  split_ifs at h with hst
  · exact hst
  · have := common_wide2 _ _ (promote_wide2 s) (promote_wide2 t)
    omega

private theorem foldl_proper {s : IntTy} {ts : List IntTy} (hs : Proper s) : Proper (ts.foldl commonType2 s) := by
  induction ts generalizing s with
  | nil => exact hs
  | cons t ts ih => exact ih (commonType2_proper hs)

private theorem emb_valid {a : Elem} {t : IntTy} (ha : Ok a) (h : Emb a.ty t) (hs : t.signed = true ∨ 0 ≤ a.val) :
    (⟨t, a.val⟩ : Elem).Valid := by
  obtain ⟨⟨m, s⟩, x⟩ := a
  obtain ⟨⟨h0, -⟩, hv⟩ := ha
  obtain ⟨n, u⟩ := t
  unfold Elem.Valid Emb at *
  simp only at *
  have e1 : (2 ^ (m - 1) : Int) ≤ 2 ^ m := pow_le2 (by omega)
  have e2 : (2 ^ m : Int) ≤ 2 ^ n := pow_le2 h.1
  have e3 : (2 ^ (m - 1) : Int) ≤ 2 ^ (n - 1) := pow_le2 (by omega)
  have e4 : m < n → (2 ^ m : Int) ≤ 2 ^ (n - 1) := fun h => pow_le2 (by omega)
  have p1 : (0 : Int) < 2 ^ (n - 1) := by positivity
  cases u <;> cases s <;> simp only [Bool.false_eq_true, if_false, if_true, reduceCtorEq, false_or, true_or,
    forall_const, false_imp_iff, and_true, IsEmpty.forall_iff] at *
  · exact ⟨hs, by linarith [hv.2]⟩
  · exact ⟨hs, by linarith [hv.2]⟩
  · have := e4 h.2
    constructor <;> linarith [hv.1, hv.2]
  · constructor <;> linarith [hv.1, hv.2]

/-- Wider, or as wide and unsigned if the other one is. -/
private def Below (s t : IntTy) : Prop :=
  s.bits < t.bits ∨ s.bits = t.bits ∧ (s.signed = false → t.signed = false)

private theorem Below.refl (s : IntTy) : Below s s := Or.inr ⟨rfl, id⟩

private theorem Below.trans {r s t : IntTy} (h : Below r s) (h' : Below s t) : Below r t := by
  unfold Below at *
  rcases h with h | ⟨h, k⟩ <;> rcases h' with h' | ⟨h', k'⟩
  · left; omega
  · left; omega
  · left; omega
  · exact Or.inr ⟨h.trans h', k' ∘ k⟩

private theorem common_below (s t : IntTy) : Below s (common s t) := by
  obtain ⟨m, s⟩ := s
  obtain ⟨n, t⟩ := t
  unfold Below
  cases s <;> cases t <;> simp [common] <;> (try split_ifs) <;> (try simp) <;> omega

private theorem common_mem (s t : IntTy) : common s t = s ∨ common s t = t := by
  obtain ⟨m, s⟩ := s
  obtain ⟨n, t⟩ := t
  cases s <;> cases t <;> simp [common] <;> (try split_ifs) <;> (try simp) <;> omega

private theorem promote_idem2 (t : IntTy) : promote (promote t) = promote t := by
  unfold promote; split_ifs <;> simp_all

/-- The common type of several types is the widest of the promoted types, unsigned if one of the widest is; if all
are the same, they are not promoted. -/
theorem commonType_spec {ts : List IntTy} {t : IntTy} (h : commonType ts = some t) :
    (t ∈ ts ∧ ∀ s ∈ ts, s = t) ∨
      ((∃ r ∈ ts, ∃ s ∈ ts, r ≠ s) ∧ (∃ s ∈ ts, t = promote s) ∧
        ∀ s ∈ ts, (promote s).bits < t.bits ∨
          (promote s).bits = t.bits ∧ ((promote s).signed = false → t.signed = false)) := by
  cases ts with
  | nil => cases h
  | cons a ts =>
    cases h
    induction ts using List.reverseRecOn with
    | nil => left; simp
    | append_singleton ts c ih =>
      rw [List.foldl_append]
      simp only [List.foldl_cons, List.foldl_nil]
      generalize ts.foldl commonType2 a = T at *
      have mem : ∀ s, s ∈ a :: (ts ++ [c]) ↔ s ∈ a :: ts ∨ s = c := by
        intro s; simp [or_assoc]
      by_cases hT : T = c
      · subst hT
        have e : commonType2 T T = T := by simp [commonType2]
        rw [e]
        rcases ih with ⟨h1, h2⟩ | ⟨⟨r, hr, s, hs, hrs⟩, ⟨q, hq, e2⟩, h3⟩
        · left
          exact ⟨(mem _).2 (Or.inl h1), fun s hs => ((mem s).1 hs).elim (h2 s) id⟩
        · right
          refine ⟨⟨r, (mem _).2 (Or.inl hr), s, (mem _).2 (Or.inl hs), hrs⟩, ⟨q, (mem _).2 (Or.inl hq), e2⟩,
            fun x hx => ?_⟩
          rcases (mem x).1 hx with hx | rfl
          · exact h3 x hx
          · rw [e2, promote_idem2]; exact Below.refl _
      · have e : commonType2 T c = common (promote T) (promote c) := by simp [commonType2, hT]
        rw [e]
        right
        have b1 : Below (promote T) (common (promote T) (promote c)) := common_below _ _
        have b2 : Below (promote c) (common (promote T) (promote c)) := by rw [common_comm2]; exact common_below _ _
        rcases ih with ⟨h1, h2⟩ | ⟨⟨r, hr, s, hs, hrs⟩, ⟨q, hq, e2⟩, h3⟩
        · refine ⟨⟨T, (mem _).2 (Or.inl h1), c, (mem _).2 (Or.inr rfl), hT⟩, ?_, fun x hx => ?_⟩
          · rcases common_mem (promote T) (promote c) with h | h
            · exact ⟨T, (mem _).2 (Or.inl h1), h⟩
            · exact ⟨c, (mem _).2 (Or.inr rfl), h⟩
          · rcases (mem x).1 hx with hx | rfl
            · rw [h2 x hx]; exact b1
            · exact b2
        · have e3 : promote T = T := by rw [e2, promote_idem2]
          refine ⟨⟨r, (mem _).2 (Or.inl hr), s, (mem _).2 (Or.inl hs), hrs⟩, ?_, fun x hx => ?_⟩
          · rcases common_mem (promote T) (promote c) with h | h
            · exact ⟨q, (mem _).2 (Or.inl hq), by rw [h, e3, e2]⟩
            · exact ⟨c, (mem _).2 (Or.inr rfl), h⟩
          · rcases (mem x).1 hx with hx | rfl
            · rw [e3] at b1
              rw [e3]
              exact Below.trans (h3 x hx) b1
            · exact b2

private theorem below_antisymm {s t : IntTy} (h : Below s t) (h' : Below t s) : s = t := by
  obtain ⟨m, s⟩ := s
  obtain ⟨n, t⟩ := t
  unfold Below at *
  simp only at *
  obtain rfl : m = n := by omega
  cases s <;> cases t <;> simp_all

/-- The order of the types does not matter. -/
theorem commonType_perm {ts us : List IntTy} (hp : ts.Perm us) : commonType ts = commonType us := by
  cases hs : commonType ts with
  | none =>
    cases ts with
    | nil => rw [hp.nil_eq.symm]; rfl
    | cons a ts => cases hs
  | some t =>
    cases hu : commonType us with
    | none =>
      cases us with
      | nil => rw [hp.eq_nil] at hs; cases hs
      | cons a us => cases hu
    | some u =>
      congr 1
      rcases commonType_spec hs with ⟨h1, h2⟩ | ⟨⟨r, hr, s, hs', hrs⟩, ⟨q, hq, e⟩, h3⟩
      · rcases commonType_spec hu with ⟨k1, k2⟩ | ⟨⟨r, hr, s, hs', hrs⟩, -, -⟩
        · exact k2 t (hp.subset h1)
        · exact absurd ((h2 r (hp.symm.subset hr)).trans (h2 s (hp.symm.subset hs')).symm) hrs
      · rcases commonType_spec hu with ⟨k1, k2⟩ | ⟨-, ⟨q', hq', e'⟩, k3⟩
        · exact absurd ((k2 r (hp.subset hr)).trans (k2 s (hp.subset hs')).symm) hrs
        · refine below_antisymm ?_ ?_
          · rw [e]; exact k3 q (hp.subset hq)
          · rw [e']; exact h3 q' (hp.symm.subset hq')

example : commonType [⟨32, true⟩, ⟨32, false⟩, ⟨64, true⟩] = some ⟨64, true⟩ := by decide
example : commonType [⟨16, true⟩, ⟨64, false⟩, ⟨64, true⟩] = commonType [⟨64, true⟩, ⟨16, true⟩, ⟨64, false⟩] :=
  commonType_perm (by decide)

/-! ### `allow_promotion` changes nothing for two numbers -/

private theorem convert_modEq2 (t : IntTy) (x : Int) : convert t x ≡ x [ZMOD 2 ^ t.bits] := by
  unfold convert
  split_ifs
  · rfl
  · exact Int.mod_modEq _ _

private theorem cast_eq_convert {a : Elem} {t : IntTy} (ha : Ok a) (h : Emb a.ty t) (ht : Proper t)
    (h1 : t.bits ≠ 1) : castTo t a.val = convert t a.val := by
  refine valid_unique ht.1 (cast_valid ht _) ?_ ((cast_modEq h1 _).trans (convert_modEq2 _ _).symm)
  by_cases hs : t.signed = true
  · have : convert t a.val = a.val := by unfold convert; rw [if_pos hs]
    rw [this]
    exact emb_valid ha h (Or.inl hs)
  · unfold convert Elem.Valid
    rw [if_neg hs]
    simp only [hs, Bool.false_eq_true, if_false]
    exact ⟨Int.emod_nonneg _ (by positivity), Int.emod_lt_of_pos _ (by positivity)⟩

private theorem convert_convert (t : IntTy) (x : Int) : convert t (convert t x) = convert t x := by
  unfold convert; split_ifs
  · rfl
  · exact Int.emod_emod_of_dvd _ (dvd_refl _)

private theorem promoteArgs_two (l r : Elem) :
    promoteArgs [l, r] = some [as (commonType2 l.ty r.ty) l, as (commonType2 l.ty r.ty) r] := rfl

/-- The two ways in which two arguments are promoted. -/
private theorem as_cases {l r : Elem} (hl : Ok l) (hr : Ok r) :
    (as (commonType2 l.ty r.ty) l = l ∧ as (commonType2 l.ty r.ty) r = r) ∨
    (l.ty ≠ r.ty ∧ ∃ t, t = common (promote l.ty) (promote r.ty) ∧ common (promote t) (promote t) = t ∧
      as (commonType2 l.ty r.ty) l = ⟨t, convert t l.val⟩ ∧ as (commonType2 l.ty r.ty) r = ⟨t, convert t r.val⟩) := by
  obtain ⟨lt, lv⟩ := l
  obtain ⟨rt, rv⟩ := r
  by_cases h : lt = rt
  · left
    subst h
    have e : commonType2 lt lt = lt := by simp [commonType2]
    simp only [as, e]
    rw [cast_self hl.1 hl.2, cast_self hr.1 hr.2]
    exact ⟨rfl, rfl⟩
  · right
    have e : commonType2 lt rt = common (promote lt) (promote rt) := by simp [commonType2, h]
    have e1 : Emb lt (commonType2 lt rt) := emb_step (Or.inl (emb_refl _))
    have e2 : Emb rt (commonType2 lt rt) := emb_step (Or.inr rfl)
    have w := common_wide2 _ _ (promote_wide2 lt) (promote_wide2 rt)
    rw [← e] at w
    have p : Proper (commonType2 lt rt) := ⟨by omega, fun _ => by omega⟩
    refine ⟨h, _, e, ?_, ?_, ?_⟩
    · have e3 : promote (commonType2 lt rt) = commonType2 lt rt := by
        unfold promote; rw [if_neg (by omega)]
      rw [e3]
      simp [common]
    · simp only [as]
      rw [cast_eq_convert (a := ⟨lt, lv⟩) hl e1 p (by omega)]
    · simp only [as]
      rw [cast_eq_convert (a := ⟨rt, rv⟩) hr e2 p (by omega)]

private theorem ifElse_promoted (c : Bool) {l r : Elem} (hl : Ok l) (hr : Ok r) :
    Algebra.ifElse c (as (commonType2 l.ty r.ty) l) (as (commonType2 l.ty r.ty) r) = Algebra.ifElse c l r := by
  rcases as_cases hl hr with ⟨e1, e2⟩ | ⟨hne, t, ht, -, e1, e2⟩
  · rw [e1, e2]
  · rw [e1, e2]
    unfold Algebra.ifElse
    simp only [if_true, if_neg hne, ← ht]
    cases c <;> rfl

private theorem isLess_promoted {l r : Elem} (hl : Ok l) (hr : Ok r) :
    Algebra.isLess (as (commonType2 l.ty r.ty) l) (as (commonType2 l.ty r.ty) r) = Algebra.isLess l r := by
  rcases as_cases hl hr with ⟨e1, e2⟩ | ⟨-, t, ht, htt, e1, e2⟩
  · rw [e1, e2]
  · rw [e1, e2]
    unfold Algebra.isLess
    simp only [htt, convert_convert, ← ht]

/-- With `allow_promotion` every operation on two numbers has the same result, and overflows for the same numbers,
as without. -/
theorem runPromoted_eq (op : Algebra.Op) {l r : Elem} (hl : Ok l) (hr : Ok r) :
    runPromoted op l r = Algebra.run op l r := by
  unfold runPromoted
  cases op <;> simp only [promoteArgs_two]
  · rcases as_cases hl hr with ⟨e1, e2⟩ | ⟨-, t, ht, htt, e1, e2⟩
    · rw [e1, e2]
    · rw [e1, e2]
      simp only [Algebra.run, Algebra.addInteger, Algebra.builtinArith, htt, convert_convert, ← ht]
  · rfl
  · simp only [Algebra.run, Algebra.lmax, isLess_promoted hl hr]
    congr 1
    have e : commonType2 r.ty l.ty = commonType2 l.ty r.ty := by
      unfold commonType2
      by_cases h : l.ty = r.ty
      · simp [h]
      · rw [if_neg h, if_neg (Ne.symm h), common_comm2]
    have := ifElse_promoted (Algebra.isLess l r) hr hl
    rwa [e] at this

theorem isLessPromoted_eq {l r : Elem} (hl : Ok l) (hr : Ok r) :
    isLessPromoted l r = some (Algebra.isLess l r) := by
  unfold isLessPromoted
  rw [promoteArgs_two]
  simp only [isLess_promoted hl hr]

theorem ifElsePromoted_eq (c : Bool) {l r : Elem} (hl : Ok l) (hr : Ok r) :
    ifElsePromoted c l r = Algebra.ifElse c l r := ifElse_promoted c hl hr

private theorem ok_ex (t : IntTy) (x : Int) (h1 : 2 ≤ t.bits) (h : (⟨t, x⟩ : Elem).Valid) : Ok ⟨t, x⟩ :=
  ⟨⟨by show 0 < t.bits; omega, fun _ => h1⟩, h⟩

example : runPromoted .add ⟨⟨16, true⟩, -3⟩ ⟨⟨64, true⟩, 5⟩ = some ⟨⟨64, true⟩, 2⟩ :=
  (runPromoted_eq .add (ok_ex _ _ (by decide) (by simp [Elem.Valid])) (ok_ex _ _ (by decide) (by simp [Elem.Valid]))).trans
    (by decide +kernel)

/-! ### The common value of numbers of several types -/

/-- With `allow_promotion` the numbers may have any types: `common` gives the number of their common type that is
congruent to all of them, modulo the width of this type, and asserts that there is one. -/
theorem commonPromoted_iff {xs : List Elem} {t : IntTy} (hx : ∀ x ∈ xs, Ok x)
    (ht : commonType (xs.map Elem.ty) = some t) (z : Arg) :
    commonPromoted xs = some z ↔
      ∃ v : Int, z = .num ⟨t, v⟩ ∧ (⟨t, v⟩ : Elem).Valid ∧ ∀ x ∈ xs, x.val ≡ v [ZMOD 2 ^ t.bits] := by
  cases xs with
  | nil => cases ht
  | cons x xs =>
    have emb : ∀ y ∈ x :: xs, Emb y.ty t := by
      intro y hy
      cases ht
      refine emb_foldl ?_
      rcases List.mem_cons.1 hy with rfl | hy
      · exact Or.inl (emb_refl _)
      · exact Or.inr (List.mem_map.2 ⟨y, hy, rfl⟩)
    have p : Proper t := by
      cases ht
      exact foldl_proper (hx x (by simp)).1
    have key : ∀ y ∈ x :: xs, ∀ v : Int, (⟨t, v⟩ : Elem).Valid →
        (castTo t y.val = v ↔ y.val ≡ v [ZMOD 2 ^ t.bits]) := by
      intro y hy v hv
      by_cases h1 : t.bits = 1
      · have hb : y.ty = t := by
          rcases commonType_spec ht with ⟨-, h2⟩ | ⟨-, ⟨q, -, e⟩, -⟩
          · exact h2 _ (List.mem_map.2 ⟨y, hy, rfl⟩)
          · have := promote_wide2 q
            rw [← e] at this
            omega
        have hv' : (⟨t, y.val⟩ : Elem).Valid := by
          have h := (hx y hy).2
          obtain ⟨yt, yv⟩ := y
          cases hb
          exact h
        rw [cast_self p hv']
        exact ⟨fun h => h ▸ rfl, valid_unique p.1 hv' hv⟩
      · constructor
        · rintro rfl
          exact (cast_modEq h1 _).symm
        · exact fun h => valid_unique p.1 (cast_valid p _) hv ((cast_modEq h1 _).trans h)
    have e : commonPromoted (x :: xs) = commonValue ((x :: xs).map fun y => Arg.num ⟨t, castTo t y.val⟩) := by
      unfold commonPromoted promoteArgs
      rw [ht]
      simp only [Option.map_some, Option.bind_some, List.map_map]
      rfl
    rw [e, commonValue_iff]
    constructor
    · rintro ⟨-, h⟩
      refine ⟨castTo t x.val, ?_, cast_valid p _, fun y hy => ?_⟩
      · exact (h _ (List.mem_map.2 ⟨x, by simp, rfl⟩)).symm
      · refine (key y hy _ (cast_valid p _)).1 ?_
        have a := h _ (List.mem_map.2 ⟨y, hy, rfl⟩)
        have b := h _ (List.mem_map.2 ⟨x, by simp, rfl⟩)
        rw [← b] at a
        simpa using a
    · rintro ⟨v, rfl, hv, h⟩
      refine ⟨by simp, fun a ha => ?_⟩
      obtain ⟨y, hy, rfl⟩ := List.mem_map.1 ha
      rw [(key y hy v hv).2 (h y hy)]

/-- So it finds whether the numbers are equal, unless one is negative and their common type unsigned. -/
theorem commonPromoted_equal {xs : List Elem} {t : IntTy} (hx : ∀ x ∈ xs, Ok x)
    (ht : commonType (xs.map Elem.ty) = some t) (hn : t.signed = true ∨ ∀ x ∈ xs, 0 ≤ x.val) (z : Arg) :
    commonPromoted xs = some z ↔ ∃ v : Int, z = .num ⟨t, v⟩ ∧ ∀ x ∈ xs, x.val = v := by
  rw [commonPromoted_iff hx ht]
  cases xs with
  | nil => cases ht
  | cons x xs =>
    have p : Proper t := by
      cases ht
      exact foldl_proper (hx x (by simp)).1
    have hv : ∀ y ∈ x :: xs, (⟨t, y.val⟩ : Elem).Valid := by
      intro y hy
      refine emb_valid (hx y hy) ?_ (hn.imp_right fun h => h y hy)
      cases ht
      refine emb_foldl ?_
      rcases List.mem_cons.1 hy with rfl | hy
      · exact Or.inl (emb_refl _)
      · exact Or.inr (List.mem_map.2 ⟨y, hy, rfl⟩)
    constructor
    · rintro ⟨v, rfl, h1, h2⟩
      exact ⟨v, rfl, fun y hy => valid_unique p.1 (hv y hy) h1 (h2 y hy)⟩
    · rintro ⟨v, rfl, h⟩
      refine ⟨v, rfl, ?_, fun y hy => by rw [h y hy]⟩
      rw [← h x (by simp)]
      exact hv x (by simp)

/-- Every negative number meets a different number that `common` takes for the same, of every unsigned type that
is no narrower and as wide as `int`. -/
theorem commonPromoted_mixed_fails {x : Elem} (hx : Ok x) (hn : x.val < 0) {w : Nat} (h1 : x.ty.bits ≤ w)
    (h2 : 32 ≤ w) : ∃ y : Elem, y.ty = ⟨w, false⟩ ∧ Ok y ∧ y.val ≠ x.val ∧
      commonPromoted [x, y] = some (.num y) ∧ commonPromoted [y, x] = some (.num y) := by
  obtain ⟨⟨m, s⟩, v⟩ := x
  obtain ⟨⟨h0, h0'⟩, hv⟩ := hx
  simp only at *
  have hs : s = true := by
    cases s with
    | true => rfl
    | false => simp [Elem.Valid] at hv; omega
  subst hs
  have lo : -(2 ^ w : Int) ≤ v := by
    have e1 : (2 ^ (m - 1) : Int) ≤ 2 ^ w := pow_le2 (by omega)
    simp [Elem.Valid] at hv
    linarith [hv.1]
  have vy : (⟨⟨w, false⟩, v + 2 ^ w⟩ : Elem).Valid := by
    simp only [Elem.Valid, Bool.false_eq_true, if_false]
    constructor <;> linarith
  have okx : Ok ⟨⟨m, true⟩, v⟩ := ⟨⟨h0, h0'⟩, hv⟩
  have oky : Ok ⟨⟨w, false⟩, v + 2 ^ w⟩ := ⟨⟨by show 0 < w; omega, fun h => by cases h⟩, vy⟩
  have pos : (0 : Int) < 2 ^ w := by positivity
  have ct : commonType [⟨m, true⟩, ⟨w, false⟩] = some ⟨w, false⟩ := by
    simp only [commonType, List.foldl_cons, List.foldl_nil, commonType2, IntTy.mk.injEq, reduceCtorEq, and_false,
      if_false, promote]
    by_cases hm : m < 32
    · simp [hm, common, show ¬ w < 32 by omega, h2]
    · simp [hm, common, show ¬ w < 32 by omega, h1]
  have ct' : commonType [⟨w, false⟩, ⟨m, true⟩] = some ⟨w, false⟩ := by
    rw [← ct]; exact commonType_perm (List.Perm.swap _ _ _)
  have me : v ≡ v + 2 ^ w [ZMOD 2 ^ w] := Int.modEq_iff_dvd.2 ⟨1, by ring⟩
  refine ⟨⟨⟨w, false⟩, v + 2 ^ w⟩, rfl, oky, by show v + 2 ^ w ≠ v; omega, ?_, ?_⟩
  · refine (commonPromoted_iff (xs := [⟨⟨m, true⟩, v⟩, ⟨⟨w, false⟩, v + 2 ^ w⟩]) (t := ⟨w, false⟩) ?_ ct _).2 ⟨_, rfl, vy, ?_⟩
    · simp [okx, oky]
    · simp only [List.mem_cons, List.not_mem_nil, or_false, forall_eq_or_imp, forall_eq]
      exact ⟨me, rfl⟩
  · refine (commonPromoted_iff (xs := [⟨⟨w, false⟩, v + 2 ^ w⟩, ⟨⟨m, true⟩, v⟩]) (t := ⟨w, false⟩) ?_ ct' _).2 ⟨_, rfl, vy, ?_⟩
    · simp [okx, oky]
    · simp only [List.mem_cons, List.not_mem_nil, or_false, forall_eq_or_imp, forall_eq]
      exact ⟨rfl, me⟩

example : commonPromoted [⟨⟨16, true⟩, 7⟩, ⟨⟨64, false⟩, 7⟩, ⟨⟨1, false⟩, 1⟩] = none := by decide +kernel
example : commonPromoted [⟨⟨16, true⟩, -7⟩, ⟨⟨64, true⟩, -7⟩, ⟨⟨8, true⟩, -7⟩] = some (.num ⟨⟨64, true⟩, -7⟩) :=
  (commonPromoted_equal (t := ⟨64, true⟩)
    (by simp [Ok, Proper, Elem.Valid]) (by decide) (Or.inl rfl) _).2 ⟨-7, rfl, by simp⟩

end Actl.CommonType
