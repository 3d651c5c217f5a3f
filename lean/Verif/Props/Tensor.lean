import Verif.Model.Tensor
import Mathlib.Data.List.Basic
import Mathlib.Data.List.Forall2
import Mathlib.Tactic.Ring

/-!
C30 (tensor indexing), C31 (tensors from nested lists).
-/

namespace Actl.Tensor

/-! ### Row-major order -/

/-- Row-major position (not used in statements). -/
def flat : List Nat → List Nat → Nat
  | _ :: ds, i :: is => i * volume ds + flat ds is
  | _, _ => 0

theorem flat_lt (dims is : List Nat) (h : InRange dims is) : flat dims is < volume dims := by
  induction dims generalizing is with
  | nil => cases is with
    | nil => simp [flat, volume]
    | cons => simp [InRange] at h
  | cons d ds ih => cases is with
    | nil => simp [InRange] at h
    | cons i is =>
      simp only [InRange] at h
      have := ih is h.2
      simp only [flat, volume]
      calc i * volume ds + flat ds is < i * volume ds + volume ds := by omega
        _ = (i + 1) * volume ds := by ring
        _ ≤ d * volume ds := Nat.mul_le_mul_right _ h.1

theorem flat_inj (dims is js : List Nat) (hi : InRange dims is) (hj : InRange dims js)
    (h : flat dims is = flat dims js) : is = js := by
  induction dims generalizing is js with
  | nil => cases is with
    | nil => cases js with
      | nil => rfl
      | cons => simp [InRange] at hj
    | cons => simp [InRange] at hi
  | cons d ds ih => cases is with
    | nil => simp [InRange] at hi
    | cons i is => cases js with
      | nil => simp [InRange] at hj
      | cons j js =>
        simp only [InRange] at hi hj
        simp only [flat] at h
        have h1 := flat_lt ds is hi.2
        have h2 := flat_lt ds js hj.2
        have hpos : 0 < volume ds := by omega
        have e1 : (flat ds is + volume ds * i) / volume ds = i := by
          rw [Nat.add_mul_div_left _ _ hpos, Nat.div_eq_of_lt h1, Nat.zero_add]
        have e2 : (flat ds js + volume ds * j) / volume ds = j := by
          rw [Nat.add_mul_div_left _ _ hpos, Nat.div_eq_of_lt h2, Nat.zero_add]
        have hij : i = j := by
          rw [← e1, ← e2, Nat.add_comm, Nat.mul_comm, h, Nat.add_comm, Nat.mul_comm j]
        subst hij
        rw [ih is js hi.2 hj.2 (by omega)]

theorem flat_surj (dims : List Nat) (k : Nat) (h : k < volume dims) :
    ∃ is, InRange dims is ∧ flat dims is = k := by
  induction dims generalizing k with
  | nil => exact ⟨[], trivial, by simp [volume] at h; simp [flat, h]⟩
  | cons d ds ih =>
    simp only [volume] at h
    have hpos : 0 < volume ds := by
      rcases Nat.eq_zero_or_pos (volume ds) with h0 | h0
      · rw [h0] at h; omega
      · exact h0
    obtain ⟨is, h1, h2⟩ := ih (k % volume ds) (Nat.mod_lt _ hpos)
    refine ⟨k / volume ds :: is, ⟨?_, h1⟩, ?_⟩
    · exact Nat.div_lt_of_lt_mul (by rw [Nat.mul_comm]; exact h)
    · simp only [flat, h2]
      rw [Nat.mul_comm]; exact Nat.div_add_mod _ _

theorem volume_tail_le (d : Nat) (ds : List Nat) (h : 0 < d) : volume ds ≤ volume (d :: ds) := by
  simp only [volume]
  exact Nat.le_mul_of_pos_left _ h

theorem computeProduct_eq (dims : List Nat) : computeProduct dims = volume dims % 2 ^ 64 := by
  have : ∀ (l : List Nat) (r : Nat),
      l.foldl (fun res v => res * v % 2 ^ 64) (r % 2 ^ 64) = r * volume l % 2 ^ 64 := by
    intro l
    induction l with
    | nil => intro r; simp [volume]
    | cons d l ih =>
      intro r
      simp only [List.foldl_cons, volume]
      have e : r % 2 ^ 64 * d % 2 ^ 64 = (r * d) % 2 ^ 64 := by rw [Nat.mod_mul_mod]
      rw [e, ih, Nat.mul_assoc]
  have h := this dims 1
  rw [Nat.one_mul] at h
  rw [← h]
  rfl

/-- `get_index` from level `I` on. -/
theorem getIndex_eq (pre ds : List Nat) (is : List Nat) (h : ds.length = is.length) (res r : Nat)
    (hr : res = r % 2 ^ 64) (h0 : pre = [] → r = 0) :
    getIndex (pre ++ ds) pre.length res is = (r * volume ds + flat ds is) % 2 ^ 64 := by
  induction ds generalizing pre is res r with
  | nil =>
    have : is = [] := by simpa using h.symm
    subst this
    simp [getIndex, volume, flat, hr]
  | cons d ds ih =>
    cases is with
    | nil => simp at h
    | cons i is =>
      simp only [getIndex]
      have hd : (pre ++ d :: ds).getD pre.length 0 = d := by simp
      rw [hd]
      have key : ((if pre.length > 0 then res * d % 2 ^ 64 else res) + i) % 2 ^ 64 =
          (r * d + i) % 2 ^ 64 := by
        split
        · rw [hr, Nat.mod_mul_mod, Nat.mod_add_mod]
        · have hp : pre = [] := List.length_eq_zero_iff.mp (by omega)
          rw [hr, h0 hp, Nat.mod_add_mod, Nat.zero_mul]
      have happ : pre ++ d :: ds = (pre ++ [d]) ++ ds := by simp
      have hlen : pre.length + 1 = (pre ++ [d]).length := by simp
      rw [happ, hlen, ih (pre ++ [d]) is (by simpa using h) _ (r * d + i) key (by simp)]
      congr 1
      simp only [volume, flat]
      ring

theorem inRange_length (dims is : List Nat) (h : InRange dims is) : dims.length = is.length := by
  induction dims generalizing is with
  | nil => cases is with
    | nil => rfl
    | cons => simp [InRange] at h
  | cons d ds ih => cases is with
    | nil => simp [InRange] at h
    | cons i is => simp only [InRange] at h; simp [ih is h.2]

theorem callIndex_eq (dims is : List Nat) (h : InRange dims is) (hv : volume dims < 2 ^ 64) :
    callIndex dims is = flat dims is := by
  have := getIndex_eq [] dims is (inRange_length dims is h) 0 0 rfl (fun _ => rfl)
  simp only [List.nil_append, List.length_nil, Nat.zero_mul, Nat.zero_add] at this
  rw [callIndex, this, Nat.mod_eq_of_lt (Nat.lt_trans (flat_lt dims is h) hv)]

theorem chained_go (dims is : List Nat) (h : dims.length = is.length) (off : Nat) :
    (is.foldl subscript (off % 2 ^ 64, dims)).1 = (off + flat dims is) % 2 ^ 64 := by
  induction dims generalizing is off with
  | nil =>
    have : is = [] := by simpa using h.symm
    subst this
    simp [flat]
  | cons d ds ih =>
    cases is with
    | nil => simp at h
    | cons i is =>
      rw [List.foldl_cons]
      have hs : subscript (off % 2 ^ 64, d :: ds) i = ((off + i * volume ds) % 2 ^ 64, ds) := by
        cases ds with
        | nil => simp [subscript, volume]
        | cons e es =>
          simp only [subscript, computeProduct_eq]
          rw [Nat.mod_add_mod, Nat.add_mod, Nat.mul_mod_mod, ← Nat.add_mod]
      rw [hs, ih is (by simpa using h)]
      simp only [flat, Nat.add_assoc]

/-- **C30** For dimensions of any number whose volume is representable (as the storage had to be
allocated): in-range index tuples address cells of the storage, bijectively, and chained subscripts
address the same cell as the call operator. -/
theorem index_bijection (dims : List Nat) (hv : volume dims < 2 ^ 64) :
    (∀ is, InRange dims is → callIndex dims is < volume dims) ∧
    (∀ is js, InRange dims is → InRange dims js → callIndex dims is = callIndex dims js → is = js) ∧
    (∀ k, k < volume dims → ∃ is, InRange dims is ∧ callIndex dims is = k) ∧
    (∀ is, InRange dims is → chained dims is = callIndex dims is) := by
  refine ⟨fun is h => ?_, fun is js hi hj h => ?_, fun k hk => ?_, fun is h => ?_⟩
  · rw [callIndex_eq dims is h hv]; exact flat_lt dims is h
  · rw [callIndex_eq dims is hi hv, callIndex_eq dims js hj hv] at h
    exact flat_inj dims is js hi hj h
  · obtain ⟨is, h1, h2⟩ := flat_surj dims k hk
    exact ⟨is, h1, by rw [callIndex_eq dims is h1 hv, h2]⟩
  · rw [callIndex_eq dims is h hv, chained]
    have := chained_go dims is (inRange_length dims is h) 0
    rw [show 0 % 2 ^ 64 = 0 from rfl, Nat.zero_add] at this
    rw [this, Nat.mod_eq_of_lt (Nat.lt_trans (flat_lt dims is h) hv)]

/-- **C30** The allocated size is the volume, and the last index varies fastest: stepping it steps
to the next cell. -/
theorem size_and_order (dims : List Nat) (hv : volume dims < 2 ^ 64) :
    computeProduct dims = volume dims ∧
    (∀ is i, InRange dims (is ++ [i + 1]) →
      callIndex dims (is ++ [i + 1]) = callIndex dims (is ++ [i]) + 1) := by
  refine ⟨by rw [computeProduct_eq, Nat.mod_eq_of_lt hv], fun is i h => ?_⟩
  have hr : InRange dims (is ++ [i]) := by
    clear hv
    induction dims generalizing is with
    | nil => cases is <;> simp [InRange] at h
    | cons d ds ih => cases is with
      | nil => cases ds with
        | nil => simp only [List.nil_append, InRange, and_true] at h ⊢; omega
        | cons => simp [InRange] at h
      | cons j is =>
        simp only [List.cons_append, InRange] at h ⊢
        exact ⟨h.1, ih is h.2⟩
  rw [callIndex_eq _ _ h hv, callIndex_eq _ _ hr hv]
  clear hv hr
  induction dims generalizing is with
  | nil => cases is <;> simp [InRange] at h
  | cons d ds ih => cases is with
    | nil => cases ds with
      | nil => simp [flat, volume]
      | cons => simp [InRange] at h
    | cons j is =>
      simp only [List.cons_append, InRange] at h
      simp only [List.cons_append, flat, ih is h.2]
      omega

example : InRange [2, 3, 4] [1, 2, 3] ∧ volume [2, 3, 4] < 2 ^ 64 ∧ callIndex [2, 3, 4] [1, 2, 3] = 23 ∧
    callIndex [2, 3, 4] [1, 0, 2] = 14 ∧ chained [2, 3, 4] [1, 0, 2] = 14 := by
  refine ⟨by simp [InRange], by decide, by decide, by decide, by decide⟩

variable {α : Type}

/-- **C30** Two tensors are equal exactly if they have the same dimensions and the same element at
every index tuple. -/
theorem equal_iff [DecidableEq α] (l r : List Nat × List α) (hl : l.2.length = volume l.1)
    (hr : r.2.length = volume r.1) (hv : volume l.1 < 2 ^ 64) :
    equal l r = true ↔ l.1 = r.1 ∧
      ∀ is, InRange l.1 is → l.2[callIndex l.1 is]? = r.2[callIndex l.1 is]? := by
  have hd : (¬ (List.range l.1.length).any (fun i => l.1.getD i 0 ≠ r.1.getD i 0) = true ∧
      l.1.length = r.1.length) ↔ l.1 = r.1 := by
    constructor
    · rintro ⟨h1, h2⟩
      apply List.ext_getElem h2
      intro i hi hi'
      simp only [List.any_eq_true, not_exists, List.mem_range, decide_eq_true_eq, not_and, not_not] at h1
      have := h1 i hi
      simpa [hi, hi'] using this
    · intro h; rw [h]; simp
  unfold equal
  by_cases he : l.1 = r.1
  · have h1 := hd.mpr he
    rw [if_neg (by simpa using h1.2), if_neg h1.1]
    simp only [decide_eq_true_eq, he, true_and]
    refine ⟨fun h is _ => by rw [h], fun h => ?_⟩
    apply List.ext_getElem?
    intro k
    rcases Nat.lt_or_ge k (volume l.1) with hk | hk
    · obtain ⟨is, h2, h3⟩ := (index_bijection l.1 hv).2.2.1 k hk
      have := h is (he ▸ h2)
      rw [← he, h3] at this
      exact this
    · rw [List.getElem?_eq_none (by omega), List.getElem?_eq_none (by rw [hr, ← he]; exact hk)]
  · constructor
    · intro h
      exfalso
      split at h
      · simp at h
      · split at h
        · simp at h
        · rename_i h1 h2
          exact he (hd.mp ⟨h2, by simpa using h1⟩)
    · exact fun h => absurd h.1 he

example : equal ([2, 3], [1, 2, 3, 4, 5, 6]) ([3, 2], [1, 2, 3, 4, 5, 6]) = false ∧
    equal ([2, 1], [1, 2]) ([2, 1], [1, 2]) = true := by decide

/-! ### Nested lists: what is laid out -/

/-- Row-major strides (not used in statements). -/
def rowStrides : List Nat → List Nat
  | [] => []
  | [_] => []
  | _ :: ds => volume ds :: rowStrides ds

theorem codeStrides_last_zero (ds : List Nat) (h : ds.getLast? = some 0) :
    codeStrides ds = rowStrides ds ∧ volume ds = 0 := by
  induction ds with
  | nil => simp at h
  | cons d0 ds ih => cases ds with
    | nil => simp at h; subst h; simp [codeStrides, rowStrides, volume]
    | cons d1 ds => cases ds with
      | nil => simp at h; subst h; simp [codeStrides, rowStrides, volume]
      | cons d2 ds =>
        obtain ⟨h1, h2⟩ := ih (by simpa using h)
        have h3 : volume (d2 :: ds) = 0 := by
          clear h1 h2 ih
          generalize hl : d2 :: ds = l at h
          have : l.getLast? = some 0 := by rw [← hl]; rw [← hl] at h; simpa using h
          clear h hl
          induction l with
          | nil => simp at this
          | cons a l ih => cases l with
            | nil => simp at this; simp [volume, this]
            | cons b l => rw [volume, ih (by simpa using this), Nat.mul_zero]
        refine ⟨?_, by rw [volume, h2, Nat.mul_zero]⟩
        have e : rowStrides (d1 :: d2 :: ds) = volume (d2 :: ds) :: rowStrides (d2 :: ds) := rfl
        simp only [codeStrides] at h1 ⊢
        rw [h1, e]
        simp only [rowStrides, h2, h3, Nat.zero_mul]

theorem codeStrides_leadEq (ds : List Nat) (h : LeadEq ds) : codeStrides ds = rowStrides ds := by
  induction ds with
  | nil => rfl
  | cons d0 ds ih => cases ds with
    | nil => rfl
    | cons d1 ds => cases ds with
      | nil => simp [codeStrides, rowStrides, volume]
      | cons d2 ds =>
        simp only [LeadEq] at h
        have h1 := ih h.2
        have e : rowStrides (d1 :: d2 :: ds) = volume (d2 :: ds) :: rowStrides (d2 :: ds) := rfl
        rw [codeStrides, h1, e]
        · simp only [rowStrides, h.1]
          rw [show volume (d1 :: d2 :: ds) = d1 * volume (d2 :: ds) from rfl, Nat.mul_comm]
        · simp
        · simp

/-- The contents to be (not used in statements). -/
def content (z : α) : (n : Nat) → List Nat → Nest α n → List α
  | 0, _, x => [x]
  | n + 1, [], _ => []
  | n + 1, d :: ds, il =>
    (items il).flatMap (content z n ds) ++
      List.replicate ((d - (items il).length) * volume ds) z

theorem flatMap_length {β : Type} (g : β → List α) (v : Nat) (xs : List β) (h : ∀ x ∈ xs, (g x).length = v) :
    (xs.flatMap g).length = xs.length * v := by
  induction xs with
  | nil => simp
  | cons x xs ih =>
    rw [List.flatMap_cons, List.length_append, h x (by simp), ih (fun y hy => h y (by simp [hy]))]
    simp only [List.length_cons]; ring

theorem flatMap_get {β : Type} (g : β → List α) (v : Nat) (xs : List β) (h : ∀ x ∈ xs, (g x).length = v)
    (i k : Nat) (hk : k < v) (x : β) (hx : xs[i]? = some x) (tail : List α) :
    (xs.flatMap g ++ tail)[i * v + k]? = (g x)[k]? := by
  induction xs generalizing i with
  | nil => simp at hx
  | cons y xs ih =>
    have hy := h y (by simp)
    rw [List.flatMap_cons, List.append_assoc]
    cases i with
    | zero =>
      simp at hx; subst hx
      rw [List.getElem?_append_left (by omega)]
      congr 1; omega
    | succ i =>
      rw [List.getElem?_append_right (by rw [hy, Nat.add_mul]; omega)]
      rw [show (i + 1) * v + k - (g y).length = i * v + k by rw [hy, Nat.succ_mul]; omega]
      exact ih (fun z hz => h z (by simp [hz])) i (by simpa using hx)

theorem content_length (z : α) (n : Nat) (dims : List Nat) (x : Nest α n) (h : Fits n dims x) :
    (content z n dims x).length = volume dims := by
  induction n generalizing dims with
  | zero => cases dims with
    | nil => rfl
    | cons => simp [Fits] at h
  | succ n ih => cases dims with
    | nil => simp [Fits] at h
    | cons d ds =>
      simp only [Fits] at h
      simp only [content, List.length_append, List.length_replicate, volume]
      rw [flatMap_length _ (volume ds) _ (fun y hy => ih ds y (h.2 y hy)), ← Nat.add_mul]
      congr 1
      have := h.1
      omega

theorem content_get (z : α) (n : Nat) (dims : List Nat) (x : Nest α n) (h : Fits n dims x) (is : List Nat)
    (hi : InRange dims is) : (content z n dims x)[flat dims is]? = some ((listed n x is).getD z) := by
  induction n generalizing dims is with
  | zero => cases dims with
    | nil => cases is with
      | nil => rfl
      | cons => simp [InRange] at hi
    | cons => simp [Fits] at h
  | succ n ih => cases dims with
    | nil => simp [Fits] at h
    | cons d ds => cases is with
      | nil => simp [InRange] at hi
      | cons i is =>
        simp only [Fits] at h
        simp only [InRange] at hi
        simp only [content, flat, listed]
        have hk := flat_lt ds is hi.2
        cases hx : (items x)[i]? with
        | some y =>
          rw [flatMap_get _ (volume ds) _ (fun y hy => content_length z n ds y (h.2 y hy)) i _ hk y hx]
          exact ih ds y (h.2 y (List.mem_of_getElem? hx)) is hi.2
        | none =>
          have hge : (items x).length ≤ i := by simpa using hx
          have hlen := flatMap_length _ (volume ds) _ (fun y hy => content_length z n ds y (h.2 y hy))
          have hle := Nat.mul_le_mul_right (volume ds) hge
          rw [List.getElem?_append_right (by rw [hlen]; omega), hlen, List.getElem?_replicate, if_pos]
          · rfl
          · have h3 : (i + 1) * volume ds ≤ d * volume ds := Nat.mul_le_mul_right _ hi.1
            rw [Nat.sub_mul]
            rw [Nat.add_mul] at h3
            omega

/-! ### Nested lists: what the code writes -/

/-- What `initialize` writes (not used in statements). -/
def body (z : α) (n : Nat) (ds : List Nat) (il : Nest α (n + 1)) : List α :=
  (items il).flatMap (content z n ds)

theorem fill_append (z : α) (a b c : List α) :
    fill z (a ++ b ++ c) a.length (a.length + b.length) = some (a ++ List.replicate b.length z ++ c) := by
  unfold fill
  rw [if_pos (by simp only [List.length_append]; omega)]
  rw [show (a ++ b ++ c).take a.length = a by simp, show a.length + b.length - a.length = b.length by omega,
    show (a ++ b ++ c).drop (a.length + b.length) = c by
      rw [← List.length_append]; exact List.drop_left' rfl]

theorem copyAt_append (a b c xs : List α) (h : b.length = xs.length) :
    copyAt (a ++ b ++ c) a.length xs = some (a ++ xs ++ c, a.length + xs.length) := by
  unfold copyAt
  rw [if_pos (by simp only [List.length_append]; omega)]
  rw [show (a ++ b ++ c).take a.length = a by simp,
    show (a ++ b ++ c).drop (a.length + xs.length) = c by
      rw [← h, ← List.length_append]; exact List.drop_left' rfl]

theorem rows_spec {β : Type} (z : α) (f : β → Nat → List α → Option (List α × Nat)) (s : Nat)
    (bod : β → List α) (xs : List β) (hb : ∀ x ∈ xs, (bod x).length ≤ s)
    (hf : ∀ x ∈ xs, ∀ pre mid post : List α, mid.length = (bod x).length →
      f x pre.length (pre ++ mid ++ post) = some (pre ++ bod x ++ post, pre.length + (bod x).length))
    (pre mid post : List α) (hm : mid.length = xs.length * s) :
    rows z f s xs pre.length (pre ++ mid ++ post) =
      some (pre ++ xs.flatMap (fun x => bod x ++ List.replicate (s - (bod x).length) z) ++ post,
        pre.length + xs.length * s) := by
  induction xs generalizing pre mid with
  | nil =>
    have : mid = [] := by simpa using hm
    subst this
    simp [rows]
  | cons x xs ih =>
    have hbx := hb x (by simp)
    have hms : s ≤ mid.length := by rw [hm, List.length_cons, Nat.add_mul]; omega
    have hsplit : mid = mid.take (bod x).length ++ (mid.take s).drop (bod x).length ++ mid.drop s := by
      have h1 : mid.take (bod x).length = (mid.take s).take (bod x).length := by
        rw [List.take_take, Nat.min_eq_left hbx]
      rw [h1, List.take_append_drop, List.take_append_drop]
    have hl1 : (mid.take (bod x).length).length = (bod x).length := by
      rw [List.length_take]; omega
    have hl2 : ((mid.take s).drop (bod x).length).length = s - (bod x).length := by
      rw [List.length_drop, List.length_take]; omega
    have hl3 : (mid.drop s).length = xs.length * s := by
      rw [List.length_drop, hm, List.length_cons, Nat.add_mul]; omega
    generalize mid.take (bod x).length = m1 at hsplit hl1
    generalize (mid.take s).drop (bod x).length = m2 at hsplit hl2
    generalize mid.drop s = m3 at hsplit hl3
    subst hsplit
    simp only [rows]
    have e1 := hf x (by simp) pre m1 (m2 ++ m3 ++ post) hl1
    rw [show pre ++ (m1 ++ m2 ++ m3) ++ post = pre ++ m1 ++ (m2 ++ m3 ++ post) by simp, e1]
    simp only
    have e2 := fill_append z (pre ++ bod x) m2 (m3 ++ post)
    rw [List.length_append, hl2, show pre.length + (bod x).length + (s - (bod x).length) = pre.length + s by omega] at e2
    rw [show pre ++ bod x ++ (m2 ++ m3 ++ post) = pre ++ bod x ++ m2 ++ (m3 ++ post) by simp, e2]
    simp only
    have e3 := ih (fun y hy => hb y (by simp [hy])) (fun y hy => hf y (by simp [hy]))
      (pre ++ bod x ++ List.replicate (s - (bod x).length) z) m3 hl3
    rw [show (pre ++ bod x ++ List.replicate (s - (bod x).length) z).length = pre.length + s by
      simp only [List.length_append, List.length_replicate]; omega] at e3
    rw [show pre ++ bod x ++ List.replicate (s - (bod x).length) z ++ (m3 ++ post) =
      pre ++ bod x ++ List.replicate (s - (bod x).length) z ++ m3 ++ post by simp, e3]
    simp only [List.flatMap_cons, List.append_assoc, List.length_cons, Nat.add_mul, Nat.one_mul]
    congr 2
    omega

theorem body_length (z : α) (n : Nat) (d : Nat) (ds : List Nat) (il : Nest α (n + 1))
    (h : Fits (n + 1) (d :: ds) il) :
    (body z n ds il).length = (items il).length * volume ds := by
  simp only [Fits] at h
  exact flatMap_length _ _ _ (fun y hy => content_length z n ds y (h.2 y hy))

theorem initLevel_spec (z : α) (n : Nat) (d : Nat) (ds : List Nat) (hn : ds.length = n) (il : Nest α (n + 1))
    (h : Fits (n + 1) (d :: ds) il) (pre mid post : List α)
    (hm : mid.length = (body z n ds il).length) :
    initLevel z n (rowStrides (d :: ds)) il pre.length (pre ++ mid ++ post) =
      some (pre ++ body z n ds il ++ post, pre.length + (body z n ds il).length) := by
  induction n generalizing d ds pre mid post with
  | zero =>
    have hb : body z 0 ds il = (show List α from il) := by
      simp only [body]
      exact List.flatMap_singleton' _
    rw [hb] at hm ⊢
    exact copyAt_append pre mid post (show List α from il) hm
  | succ n ih =>
    have hlen := body_length z (n + 1) d ds il h
    simp only [Fits] at h
    cases ds with
    | nil => simp at hn
    | cons d' ds =>
      have hr : rowStrides (d :: d' :: ds) = volume (d' :: ds) :: rowStrides (d' :: ds) := rfl
      rw [hr]
      simp only [initLevel]
      have hbl : ∀ x ∈ (items il), (body z n ds x).length =
          (items x).length * volume ds :=
        fun x hx => body_length z n d' ds x (h.2 x hx)
      have hrow := rows_spec z (initLevel z n (rowStrides (d' :: ds))) (volume (d' :: ds))
        (body z n ds) (items il) (fun x hx => ?_)
        (fun x hx pre mid post hm => ih d' ds (by simpa using hn) x (h.2 x hx) pre mid post hm) pre mid post (by rw [hm, hlen])
      · rw [hrow]
        have hc : (items il).flatMap (fun x => body z n ds x ++
            List.replicate (volume (d' :: ds) - (body z n ds x).length) z) = body z (n + 1) (d' :: ds) il := by
          simp only [body]
          apply List.flatMap_congr
          intro x hx
          have := hbl x hx
          simp only [body] at this
          rw [this]
          simp only [content, volume, Nat.sub_mul]
        rw [hc, hlen]
      · rw [hbl x hx]
        have := h.2 x hx
        simp only [Fits] at this
        simp only [volume]
        exact Nat.mul_le_mul_right _ this.1

/-! ### The dimensions deduced from nested lists -/

theorem fits_mono (n : Nat) (ds es : List Nat) (x : Nest α n) (h : Fits n ds x)
    (hle : List.Forall₂ (· ≤ ·) ds es) : Fits n es x := by
  induction n generalizing ds es with
  | zero => cases hle with
    | nil => exact trivial
    | cons => simp [Fits] at h
  | succ n ih => cases hle with
    | nil => simp [Fits] at h
    | cons h1 h2 =>
      simp only [Fits] at h ⊢
      exact ⟨by omega, fun y hy => ih _ _ y (h.2 y hy) h2⟩

theorem forall₂_le_trans {a b c : List Nat} (h1 : List.Forall₂ (· ≤ ·) a b)
    (h2 : List.Forall₂ (· ≤ ·) b c) : List.Forall₂ (· ≤ ·) a c := by
  induction h1 generalizing c with
  | nil => exact h2
  | cons h _ ih => cases h2 with
    | cons h' h'' => exact .cons (Nat.le_trans h h') (ih h'')

theorem forall₂_le_refl (a : List Nat) : List.Forall₂ (· ≤ ·) a a := by
  induction a with
  | nil => exact .nil
  | cons x a ih => exact .cons (Nat.le_refl _) ih

theorem computeDims_spec (n : Nat) (x : Nest α n) (ds : List Nat) (hn : ds.length = n) :
    List.Forall₂ (· ≤ ·) ds (computeDims n x ds) ∧ Fits n (computeDims n x ds) x ∧
    ∀ k m, (computeDims n x ds)[k]? = some m → ds[k]? = some m ∨ HasLen n k m x := by
  induction n generalizing ds with
  | zero =>
    have : ds = [] := by simpa using hn
    subst this
    exact ⟨.nil, trivial, fun k m h => by simp [computeDims] at h⟩
  | succ n ih =>
    cases ds with
    | nil => simp at hn
    | cons d ds =>
      simp only [List.length_cons, Nat.add_right_cancel_iff] at hn
      simp only [computeDims]
      have key : ∀ (l : List (Nest α n)) (es : List Nat), es.length = n →
          List.Forall₂ (· ≤ ·) es (l.foldl (fun ds x => computeDims n x ds) es) ∧
          (∀ y ∈ l, Fits n (l.foldl (fun ds x => computeDims n x ds) es) y) ∧
          ∀ k m, (l.foldl (fun ds x => computeDims n x ds) es)[k]? = some m →
            es[k]? = some m ∨ ∃ y ∈ l, HasLen n k m y := by
        intro l
        induction l with
        | nil => exact fun es _ => ⟨forall₂_le_refl _, by simp, fun k m h => Or.inl h⟩
        | cons y l ihl =>
          intro es hes
          obtain ⟨a1, a2, a3⟩ := ih y es hes
          have hlen := a1.length_eq
          obtain ⟨b1, b2, b3⟩ := ihl (computeDims n y es) (by omega)
          simp only [List.foldl_cons]
          refine ⟨forall₂_le_trans a1 b1, ?_, ?_⟩
          · intro w hw
            rcases List.mem_cons.mp hw with rfl | hw
            · exact fits_mono n _ _ _ a2 b1
            · exact b2 w hw
          · intro k m h
            rcases b3 k m h with h | ⟨w, hw, h⟩
            · rcases a3 k m h with h | h
              · exact Or.inl h
              · exact Or.inr ⟨y, by simp, h⟩
            · exact Or.inr ⟨w, by simp [hw], h⟩
      obtain ⟨c1, c2, c3⟩ := key (items x) ds hn
      refine ⟨.cons (Nat.le_max_left _ _) c1, ⟨Nat.le_max_right _ _, c2⟩, ?_⟩
      intro k m h
      cases k with
      | zero =>
        simp only [List.getElem?_cons_zero, Option.some.injEq] at h ⊢
        rcases Nat.le_total d (items x).length with h' | h'
        · right; simp only [HasLen]; rw [← h]; exact (Nat.max_eq_right h').symm
        · left; rw [← h]; exact (Nat.max_eq_left h').symm
      | succ k =>
        simp only [List.getElem?_cons_succ] at h ⊢
        simp only [HasLen]
        exact c3 k m h

/-- **C31** Deduced dimensions are the maximal extents: the tensor has a dimension for every level,
no list of a level is longer than its dimension, and a positive dimension is the length of some
list of its level. -/
theorem computeDims_correct (n : Nat) (x : Nest α n) :
    (computeDims n x (List.replicate n 0)).length = n ∧
    Fits n (computeDims n x (List.replicate n 0)) x ∧
    ∀ k m, (computeDims n x (List.replicate n 0))[k]? = some m → 0 < m → HasLen n k m x := by
  obtain ⟨h1, h2, h3⟩ := computeDims_spec n x (List.replicate n 0) (by simp)
  refine ⟨by rw [← h1.length_eq]; simp, h2, fun k m h hm => ?_⟩
  rcases h3 k m h with h | h
  · rw [List.getElem?_replicate] at h
    split at h <;> simp at h
    omega
  · exact h

/-! ### Correct if the leading dimensions are equal -/

theorem nestedInit_spec (z : α) (n : Nat) (dims : List Nat) (hn : dims.length = n + 1)
    (hs : codeStrides dims = rowStrides dims) (il : Nest α (n + 1)) (h : Fits (n + 1) dims il)
    (mem : List α) (hm : mem.length = volume dims) :
    nestedInit z n dims il mem = some (content z (n + 1) dims il) := by
  cases dims with
  | nil => simp at hn
  | cons d ds =>
    have hb := body_length z n d ds il h
    have hle : (items il).length * volume ds ≤ volume (d :: ds) := by
      simp only [Fits] at h
      exact Nat.mul_le_mul_right _ h.1
    have hsplit : mem = [] ++ mem.take ((items il).length * volume ds) ++
        mem.drop ((items il).length * volume ds) := by simp
    have h1 := initLevel_spec z n d ds (by simpa using hn) il h [] (mem.take ((items il).length * volume ds))
      (mem.drop ((items il).length * volume ds)) (by rw [hb, List.length_take]; omega)
    rw [← hsplit] at h1
    unfold nestedInit
    rw [hs, show (0 : Nat) = ([] : List α).length from rfl, h1]
    simp only [List.nil_append, List.length_nil, Nat.zero_add]
    have h2 := fill_append z (body z n ds il) (mem.drop ((items il).length * volume ds)) []
    simp only [List.append_nil] at h2
    rw [List.length_append, h2]
    simp only [content, body, List.length_drop, hm, volume, Nat.sub_mul]

/-- **C31** (part) With dimensions `dims` of any number that no list exceeds, all but the last equal
or the last one zero, construction from nested lists is defined and the tensor holds at every
listed position the listed value and `T{}` elsewhere.  Missing: other dimensions, for which it is
false (`ofNested_fails`). -/
theorem nestedInit_partial (z : α) (n : Nat) (dims : List Nat) (hd : LeadEq dims ∨ dims.getLast? = some 0)
    (hv : volume dims < 2 ^ 64) (il : Nest α (n + 1)) (hn : dims.length = n + 1) (h : Fits (n + 1) dims il)
    (mem : List α) (hm : mem.length = volume dims) :
    ∃ data, nestedInit z n dims il mem = some data ∧ data.length = volume dims ∧
      ∀ is, InRange dims is → data[callIndex dims is]? = some ((listed (n + 1) il is).getD z) := by
  have hs : codeStrides dims = rowStrides dims := by
    rcases hd with hd | hd
    · exact codeStrides_leadEq dims hd
    · exact (codeStrides_last_zero dims hd).1
  exact ⟨_, nestedInit_spec z n dims hn hs il h mem hm, content_length z _ _ _ h,
    fun is hi => by rw [callIndex_eq dims is hi hv]; exact content_get z _ _ _ h is hi⟩

example : LeadEq [2, 2, 3] ∧ Fits 3 [2, 2, 3] ([[[1, 2, 3], [4]], [[5, 6]]] : List (List (List Nat))) ∧
    nestedInit 0 2 [2, 2, 3] ([[[1, 2, 3], [4]], [[5, 6]]] : List (List (List Nat))) (List.replicate 12 7) =
      some [1, 2, 3, 4, 0, 0, 5, 6, 0, 0, 0, 0] := by
  refine ⟨by simp [LeadEq], ?_, by decide⟩
  have h : ∀ (x : List (List Nat)), x ∈ [[[1, 2, 3], [4]], [[5, 6]]] → x.length ≤ 2 ∧ ∀ y ∈ x, y.length ≤ 3 := by
    decide
  exact ⟨by decide, fun x hx => ⟨(h x hx).1, fun y hy => ⟨(h x hx).2 y hy, fun _ _ => trivial⟩⟩⟩

/-! ### Undefined otherwise -/

/-- The stride of the current level (not used in statements). -/
def strideAt : Nat → List Nat → Nat
  | 0, _ => 1
  | _ + 1, ss => ss.headD 0

theorem fill_length {z : α} {mem mem' : List α} {a b : Nat} (h : fill z mem a b = some mem') :
    mem'.length = mem.length ∧ a ≤ b ∧ b ≤ mem.length := by
  unfold fill at h
  split at h
  · rename_i hab
    simp only [Option.some.injEq] at h
    rw [← h]
    refine ⟨?_, hab.1, hab.2⟩
    simp only [List.length_append, List.length_take, List.length_replicate, List.length_drop]
    omega
  · simp at h

theorem rows_ends {β : Type} (z : α) (f : β → Nat → List α → Option (List α × Nat)) (s : Nat) (len : β → Nat)
    (hf : ∀ x p mem mem' e, f x p mem = some (mem', e) → mem'.length = mem.length ∧ e = p + len x)
    (xs : List β) (p : Nat) (mem mem' : List α) (e : Nat) (h : rows z f s xs p mem = some (mem', e)) :
    mem'.length = mem.length ∧ e = p + xs.length * s ∧
    ∀ x ∈ xs, len x ≤ s ∧ ∃ p mem r, f x p mem = some r := by
  induction xs generalizing p mem with
  | nil =>
    simp only [rows, Option.some.injEq, Prod.mk.injEq] at h
    simp [h.1, h.2]
  | cons x xs ih =>
    simp only [rows] at h
    cases h1 : f x p mem with
    | none => rw [h1] at h; simp at h
    | some r =>
      obtain ⟨m1, e1⟩ := r
      rw [h1] at h
      simp only at h
      cases h2 : fill z m1 e1 (p + s) with
      | none => rw [h2] at h; simp at h
      | some m2 =>
        rw [h2] at h
        simp only at h
        obtain ⟨a1, a2, a3⟩ := ih _ _ h
        obtain ⟨b1, b2⟩ := hf x p mem m1 e1 h1
        obtain ⟨c1, c2, c3⟩ := fill_length h2
        refine ⟨by omega, by rw [a2, List.length_cons, Nat.add_mul]; omega, ?_⟩
        intro y hy
        rcases List.mem_cons.mp hy with rfl | hy
        · exact ⟨by omega, p, mem, _, h1⟩
        · exact a3 y hy

theorem initLevel_ends (z : α) (n : Nat) (ss : List Nat) (il : Nest α (n + 1)) (p : Nat) (mem mem' : List α)
    (e : Nat) (h : initLevel z n ss il p mem = some (mem', e)) :
    mem'.length = mem.length ∧ e = p + (items il).length * strideAt n ss := by
  induction n generalizing ss p mem mem' e with
  | zero =>
    simp only [initLevel, copyAt] at h
    split at h
    · rename_i hlt
      simp only [Option.some.injEq, Prod.mk.injEq] at h
      rw [← h.1, ← h.2]
      have hit : (items il).length = List.length (α := α) il := rfl
      refine ⟨?_, by rw [hit, strideAt, Nat.mul_one]⟩
      have : ∀ xs : List α, p + xs.length ≤ mem.length →
          (mem.take p ++ xs ++ mem.drop (p + xs.length)).length = mem.length := by
        intro xs hxs
        simp only [List.length_append, List.length_take, List.length_drop]
        omega
      exact this il hlt
    · simp at h
  | succ n ih =>
    cases ss with
    | nil => simp [initLevel] at h
    | cons s ss =>
      simp only [initLevel] at h
      obtain ⟨h1, h2, _⟩ := rows_ends z (initLevel z n ss) s
        (fun x => (items x).length * strideAt n ss) (fun x p mem mem' e hx => ih ss x p mem mem' e hx)
        _ _ _ _ _ h
      exact ⟨h1, by rw [h2]; rfl⟩

theorem codeStrides_pos (ds : List Nat) (h : ∀ d ∈ ds, 0 < d) : ∀ s ∈ codeStrides ds, 0 < s := by
  induction ds with
  | nil => simp [codeStrides]
  | cons d0 ds ih => cases ds with
    | nil => simp [codeStrides]
    | cons d1 ds => cases ds with
      | nil => simpa [codeStrides] using h d1 (by simp)
      | cons d2 ds =>
        have hi := ih (fun d hd => h d (List.mem_cons_of_mem _ hd))
        rw [codeStrides]
        · cases hc : codeStrides (d1 :: d2 :: ds) with
          | nil => simp
          | cons s ss =>
            rw [hc] at hi
            have h0 := h d0 (by simp)
            have hs := hi s (by simp)
            intro t ht
            simp only [List.mem_cons] at ht
            rcases ht with rfl | rfl | ht
            · exact Nat.mul_pos hs h0
            · exact hs
            · exact hi t (by simp [ht])
        · simp
        · simp

theorem codeStrides_cons (d0 d1 d2 : Nat) (ds : List Nat) : ∃ s ss,
    codeStrides (d1 :: d2 :: ds) = s :: ss ∧ codeStrides (d0 :: d1 :: d2 :: ds) = s * d0 :: s :: ss := by
  have hne : ∀ (d1 d2 : Nat) (ds : List Nat), ∃ s ss, codeStrides (d1 :: d2 :: ds) = s :: ss := by
    intro d1 d2 ds
    induction ds generalizing d1 d2 with
    | nil => exact ⟨_, _, rfl⟩
    | cons d3 ds ih =>
      obtain ⟨s, ss, h⟩ := ih d2 d3
      refine ⟨s * d1, s :: ss, ?_⟩
      rw [codeStrides, h]
      · simp
      · simp
  obtain ⟨s, ss, h⟩ := hne d1 d2 ds
  refine ⟨s, ss, h, ?_⟩
  rw [codeStrides, h]
  · simp
  · simp

/-- A successful run shows that the lists of a level are not longer than the dimension before. -/
theorem initLevel_bound (z : α) (n : Nat) (dims : List Nat) (hn : dims.length = n + 1)
    (hp : ∀ d ∈ dims, 0 < d) (il : Nest α (n + 1)) (p : Nat) (mem : List α) (r : List α × Nat)
    (h : initLevel z n (codeStrides dims) il p mem = some r) (k m d : Nat) (hk : k + 2 ≤ n)
    (hd : dims[k]? = some d) (hl : HasLen (n + 1) (k + 1) m il) : m ≤ d := by
  induction n generalizing dims p mem r k with
  | zero => omega
  | succ n ih =>
    match dims, hn with
    | [d0, d1], hn => simp at hn; omega
    | d0 :: d1 :: d2 :: ds, hn =>
      obtain ⟨s, ss, hs1, hs0⟩ := codeStrides_cons d0 d1 d2 ds
      rw [hs0] at h
      simp only [initLevel] at h
      obtain ⟨mem', e⟩ := r
      obtain ⟨_, _, h3⟩ := rows_ends z (initLevel z n (s :: ss)) (s * d0)
        (fun x => (items x).length * strideAt n (s :: ss))
        (fun x p mem mem' e hx => initLevel_ends z n (s :: ss) x p mem mem' e hx) _ _ _ _ _ h
      simp only [HasLen] at hl
      obtain ⟨x, hx, hl⟩ := hl
      obtain ⟨hlen, p', mem'', r', hr'⟩ := h3 x hx
      cases n with
      | zero => omega
      | succ n =>
        cases k with
        | zero =>
          simp only [HasLen] at hl
          simp only [List.getElem?_cons_zero, Option.some.injEq] at hd
          have hspos : 0 < s := codeStrides_pos (d1 :: d2 :: ds) (fun d hd => hp d (List.mem_cons_of_mem _ hd)) s (by rw [hs1]; simp)
          simp only [strideAt, List.headD_cons, hl] at hlen
          rw [Nat.mul_comm] at hlen
          rw [← hd]
          exact Nat.le_of_mul_le_mul_left hlen hspos
        | succ k =>
          rw [← hs1] at hr'
          exact ih (d1 :: d2 :: ds) (by simpa using hn) (fun d hd => hp d (List.mem_cons_of_mem _ hd)) x
            p' mem'' r' hr' k (by omega) (by simpa using hd) hl

/-- Decreasing leading dimensions with a first stride that is not too large are equal. -/
theorem leadEq_of (d0 d1 : Nat) (ds : List Nat) (hp : ∀ d ∈ d0 :: d1 :: ds, 0 < d)
    (hdec : ∀ k a b, k + 2 ≤ ds.length + 1 → (d0 :: d1 :: ds)[k]? = some a → (d0 :: d1 :: ds)[k + 1]? = some b → b ≤ a) :
    volume (d1 :: ds) ≤ (codeStrides (d0 :: d1 :: ds)).headD 0 ∧
    ((codeStrides (d0 :: d1 :: ds)).headD 0 ≤ volume (d1 :: ds) → LeadEq (d0 :: d1 :: ds)) := by
  induction ds generalizing d0 d1 with
  | nil => simp [codeStrides, volume, LeadEq]
  | cons d2 ds ih =>
    obtain ⟨s, ss, hs1, hs0⟩ := codeStrides_cons d0 d1 d2 ds
    obtain ⟨h1, h2⟩ := ih d1 d2 (fun d hd => hp d (List.mem_cons_of_mem _ hd))
      (fun k a b hk ha hb => hdec (k + 1) a b (by simp only [List.length_cons]; omega) (by simpa using ha) (by simpa using hb))
    rw [hs1] at h1 h2
    rw [hs0]
    simp only [List.headD_cons] at h1 h2 ⊢
    have hd : d1 ≤ d0 := hdec 0 d0 d1 (by simp) rfl rfl
    have hd1 : 0 < d1 := hp d1 (by simp)
    have hv : volume (d1 :: d2 :: ds) = d1 * volume (d2 :: ds) := rfl
    rw [hv]
    have hspos : 0 < s := codeStrides_pos (d1 :: d2 :: ds) (fun d hd => hp d (List.mem_cons_of_mem _ hd)) s (by rw [hs1]; simp)
    have hle : d1 * volume (d2 :: ds) ≤ d0 * s := Nat.mul_le_mul hd h1
    rw [Nat.mul_comm s d0]
    refine ⟨hle, fun h => ?_⟩
    have e1 : d0 * s ≤ d0 * volume (d2 :: ds) := Nat.le_trans h (Nat.mul_le_mul_right _ hd)
    have e2 : s ≤ volume (d2 :: ds) := Nat.le_of_mul_le_mul_left e1 (by omega)
    have e3 : d0 * s ≤ d1 * s := Nat.le_trans h (Nat.mul_le_mul_left _ h1)
    have e4 : d0 ≤ d1 := Nat.le_of_mul_le_mul_right e3 hspos
    exact ⟨by omega, h2 e2⟩

theorem foldl_mul (l : List Nat) (r : Nat) : l.foldl (· * ·) r = r * volume l := by
  induction l generalizing r with
  | nil => simp [volume]
  | cons d l ih => simp only [List.foldl_cons, ih, volume, Nat.mul_assoc]

/-- **C31** (negation) Construction from nested lists of any depth, with the dimensions deduced, is
defined only if the deduced dimensions but the last are all equal, or one is zero.  In every other
case, for instance whenever a tensor of rank three has different first two dimensions, it writes
out of its storage (or fills backwards). -/
theorem ofNested_fails (z : α) (n : Nat) (il : Nest α (n + 1)) (fresh : Nat → List α)
    (hf : ∀ k, (fresh k).length = k) (dims : List Nat)
    (hd : dims = computeDims (n + 1) il (List.replicate (n + 1) 0)) (hp : ∀ d ∈ dims, 0 < d)
    (hne : ¬ LeadEq dims) : ofNested z n il fresh = none := by
  obtain ⟨hlen, hfits, hatt⟩ := computeDims_correct (n + 1) il
  unfold ofNested
  rw [← hd] at hlen hfits hatt ⊢
  simp only [foldl_mul, Nat.one_mul, nestedInit]
  match dims, hlen with
  | [d0], _ => exact absurd trivial hne
  | d0 :: d1 :: ds, hlen =>
    cases h : initLevel z n (codeStrides (d0 :: d1 :: ds)) il 0 (fresh (volume (d0 :: d1 :: ds))) with
    | none => rfl
    | some r =>
      obtain ⟨mem', e⟩ := r
      simp only
      obtain ⟨h1, h2⟩ := initLevel_ends z n _ il _ _ _ _ h
      cases hfl : fill z mem' e mem'.length with
      | none => rfl
      | some m2 =>
        exfalso
        obtain ⟨_, h3, _⟩ := fill_length hfl
        rw [h1, hf, h2, Nat.zero_add] at h3
        have hl0 : (items il).length = d0 := by
          have := hatt 0 d0 rfl (hp d0 (by simp))
          simpa [HasLen] using this
        have hn1 : n = ds.length + 1 := by simp only [List.length_cons] at hlen; omega
        have hdec : ∀ k a b, k + 2 ≤ ds.length + 1 → (d0 :: d1 :: ds)[k]? = some a →
            (d0 :: d1 :: ds)[k + 1]? = some b → b ≤ a := by
          intro k a b hk ha hb
          have hbpos : 0 < b := hp b (List.mem_of_getElem? hb)
          exact initLevel_bound z n _ hlen hp il 0 _ _ h k b a (by omega) ha (hatt (k + 1) b hb hbpos)
        obtain ⟨_, h5⟩ := leadEq_of d0 d1 ds hp hdec
        apply hne
        apply h5
        rw [hl0, hn1] at h3
        simp only [strideAt] at h3
        exact Nat.le_of_mul_le_mul_left h3 (hp d0 (by simp))

example : ofNested 0 2 ([[[1], [2]]] : List (List (List Nat))) (fun k => List.replicate k 0) = none ∧
    ofNested 0 2 ([[[1]], [[2]], [[3]]] : List (List (List Nat))) (fun k => List.replicate k 0) = none := by
  decide

/-- **C31** With the dimensions deduced and all but the last equal (every list of rank at most two),
the result. -/
theorem ofNested_partial (z : α) (n : Nat) (il : Nest α (n + 1)) (fresh : Nat → List α)
    (hf : ∀ k, (fresh k).length = k) (dims : List Nat)
    (hd : dims = computeDims (n + 1) il (List.replicate (n + 1) 0))
    (hl : n ≤ 1 ∨ LeadEq dims ∨ dims.getLast? = some 0) (hv : volume dims < 2 ^ 64) :
    ∃ data, ofNested z n il fresh = some (dims, data) ∧ data.length = volume dims ∧
      ∀ is, InRange dims is → data[callIndex dims is]? = some ((listed (n + 1) il is).getD z) := by
  obtain ⟨hlen, hfits, _⟩ := computeDims_correct (n + 1) il
  rw [← hd] at hlen hfits
  have hl' : LeadEq dims ∨ dims.getLast? = some 0 := by
    rcases hl with hl | hl
    · left
      match dims, hlen with
      | [d0], _ => exact trivial
      | [d0, d1], _ => exact trivial
      | d0 :: d1 :: d2 :: ds, hlen => simp at hlen; omega
    · exact hl
  obtain ⟨data, h1, h2⟩ := nestedInit_partial z n dims hl' hv il hlen hfits (fresh (volume dims)) (hf _)
  refine ⟨data, ?_, h2⟩
  unfold ofNested
  rw [← hd]
  simp only [foldl_mul, Nat.one_mul, h1]

example : ofNested 0 1 ([[1, 2, 3], [], [4]] : List (List Nat)) (fun k => List.replicate k 7) =
    some ([3, 3], [1, 2, 3, 0, 0, 0, 4, 0, 0]) := by decide

end Actl.Tensor
