import Verif.Spec.Rebind

/-!
# C116: rebinding a container

For every container template of the form of `Spec/Rebind.lean`, all element types `a` and `b`: rebinding the container
of `a` to `b` gives the container of `b`.
-/

namespace Actl.Rebind

theorem sizeOf_arg {c : Tmpl} {ts : List Ty} {t : Ty} (h : t ∈ ts) : sizeOf t < sizeOf (Ty.spec c ts) := by
  have := List.sizeOf_lt_of_mem h
  simp only [Ty.spec.sizeOf_spec]
  omega

theorem spec_ne_arg {c : Tmpl} {ts : List Ty} {t : Ty} (h : t ∈ ts) : Ty.spec c ts ≠ t := fun e => by
  have := sizeOf_arg (c := c) h
  rw [e] at this
  omega

theorem arr_ne (a : Ty) (n : Nat) : Ty.arr a n ≠ a := fun e => by
  have := congrArg sizeOf e
  simp only [Ty.arr.sizeOf_spec] at this
  omega

theorem stdArray_ne (a : Ty) (n : Nat) : Ty.stdArray a n ≠ a := fun e => by
  have := congrArg sizeOf e
  simp only [Ty.stdArray.sizeOf_spec] at this
  omega

theorem rebind_functor {c : Tmpl} (h : ∀ n, c ≠ .named n) (k u : Ty) : rebind (.spec c [k]) u = .spec c [void] := by
  cases c with
  | less => rw [rebind]
  | equalTo => rw [rebind]
  | hashFunction => rw [rebind]
  | named n => exact absurd rfl (h n)

theorem rebind_named (c : Nat) (t u : Ty) (ts : List Ty) :
    rebind (.spec (.named c) (t :: ts)) u = .spec (.named c) (u :: rebindArgs t u ts) := by
  rw [rebind] <;> simp

/-- C116. Rebinding a container of elements `a` to `b` gives the same container of `b`: the element type is replaced
wherever the parameters of the template depend on it, at any depth, and nothing else changes; function objects become
transparent ones. -/
theorem rebind_of {a b k : Ty} (hk : k = a ∨ k = void) :
    ∀ {p : Pat}, p.Clear a → p.IsContainer → rebind (p.of a k) b = p.of b void
  | .arr n, _, _ => by rw [Pat.of, Pat.of, rebind]
  | .stdArray n, _, _ => by rw [Pat.of, Pat.of, rebind]
  | .cls c ps, hp, _ => by
    rw [Pat.of, Pat.of, rebind_named]
    congr 2
    cases hp with
    | cls hp =>
    suffices ∀ qs : List Pat, (∀ q ∈ qs, q ∈ ps) →
        rebindArgs a b (qs.map (Pat.of a k)) = qs.map (Pat.of b void) from this ps fun _ h => h
    intro qs hqs
    induction qs with
    | nil => rfl
    | cons q qs ih =>
      rw [List.map_cons, List.map_cons, rebindArgs, ih fun r hr => hqs r (List.mem_cons_of_mem _ hr)]
      have hq := hqs q List.mem_cons_self
      have hc := hp q hq
      congr 1
      match q, hc with
      | .elem, _ => rw [Pat.of, Pat.of, if_pos rfl]
      | .fixed t, .fixed h1 h2 => rw [Pat.of, Pat.of, if_neg h1, if_neg h2]
      | .functor c, .functor h h' =>
        rw [Pat.of, Pat.of]
        rcases hk with rfl | rfl
        · rw [if_neg (spec_ne_arg (by simp)), if_pos (by rfl), rebind_functor h]
        · by_cases h0 : (void : Ty) = a
          · subst h0
            rw [if_neg (spec_ne_arg (by simp)), if_pos (by rfl), rebind_functor h]
          · rw [if_neg (Ne.symm h'), if_neg (by simpa [templateType] using h0)]
      | .arr n, _ =>
        rw [Pat.of, Pat.of, if_neg (arr_ne a n), if_pos (by rfl), rebind]
      | .stdArray n, _ =>
        rw [Pat.of, Pat.of, if_neg (stdArray_ne a n), if_pos (by rfl), rebind]
      | .cls c' ps', hc' =>
        have := rebind_of (b := b) hk hc' trivial
        rw [if_neg (by rw [Pat.of]; exact spec_ne_arg (by simp)), if_pos (by rw [Pat.of]; rfl), this]
termination_by p => sizeOf p
decreasing_by
  have := List.sizeOf_lt_of_mem hq
  simp only [Pat.cls.sizeOf_spec] at this ⊢
  omega

/-- The element type `p` is instantiated with comes back: rebinding to `b` and from there to `c` is rebinding to `c` at
once. -/
theorem rebind_rebind {a b c k : Ty} (hk : k = a ∨ k = void) {p : Pat} (ha : p.Clear a) (hb : p.Clear b)
    (h : p.IsContainer) : rebind (rebind (p.of a k) b) c = rebind (p.of a k) c := by
  rw [rebind_of hk ha h, rebind_of (.inr rfl) hb h, rebind_of hk ha h]

/-- A container with transparent function objects is restored by rebinding it back. -/
theorem rebind_back {a b : Ty} {p : Pat} (ha : p.Clear a) (hb : p.Clear b) (h : p.IsContainer) :
    rebind (rebind (p.of a void) b) a = p.of a void := by
  rw [rebind_of (.inr rfl) ha h, rebind_of (.inr rfl) hb h]

/-- Whatever the other parameters of a class template are, its first one becomes the target. -/
theorem rebind_first (c : Nat) (a b : Ty) (ts : List Ty) :
    ∃ us, us.length = ts.length ∧ rebind (.spec (.named c) (a :: ts)) b = .spec (.named c) (b :: us) := by
  refine ⟨rebindArgs a b ts, ?_, rebind_named c a b ts⟩
  induction ts with
  | nil => rfl
  | cons t ts ih => rw [rebindArgs, List.length_cons, List.length_cons, ih]

/-- A type which is no template and no array stays. -/
theorem rebind_atom (n : Nat) (b : Ty) : rebind (.atom n) b = .atom n := by
  rw [rebind] <;> simp

/-- C116. The containers graphs are made of. -/
theorem rebindContainer_of {a b k : Ty} (hk : k = a ∨ k = void) (hb : b ≠ noneTy) {p : Pat} (hp : p.Clear a)
    (h : p.IsContainer) : rebindContainer (p.of a k) b = p.of b void := by
  have : p.of a k ≠ noneTy := by
    match p, h with
    | .arr n, _ => simp [Pat.of, noneTy]
    | .stdArray n, _ => simp [Pat.of, noneTy]
    | .cls c ps, _ => simp [Pat.of, noneTy]
  rw [rebindContainer, if_neg (by simp [this, hb]), rebind_of hk hp h]

/-- C116. Without a container or without data for the elements, only the number of elements is kept. -/
theorem rebindContainer_none (c : Ty) :
    rebindContainer noneTy c = dummy ∧ rebindContainer c noneTy = dummy ∧ rebindContainer dummy c = dummy := by
  refine ⟨by simp [rebindContainer], by simp [rebindContainer], ?_⟩
  rw [rebindContainer]
  split_ifs with h
  · rfl
  · exact rebind_atom _ _

/-! ### Containers of the standard library, for all element types -/

theorem allocator_clear (a : Ty) : allocator.Clear a := .cls (by simp)

theorem vector_clear (a : Ty) : vector.Clear a := .cls (by simpa using allocator_clear a)

theorem deque_clear (a : Ty) : deque.Clear a := .cls (by simpa using allocator_clear a)

theorem list_clear (a : Ty) : list.Clear a := .cls (by simpa using allocator_clear a)

theorem stack_clear (a : Ty) : stack.Clear a := .cls (by simpa using deque_clear a)

theorem set_clear {a : Ty} (h : a ≠ .spec .less [void]) : set.Clear a :=
  .cls (by simpa using ⟨.functor (by simp) h, allocator_clear a⟩)

theorem hashSet_clear {a : Ty} (h : a ≠ .spec .equalTo [void]) (h' : a ≠ .spec .hashFunction [void]) :
    hashSet.Clear a :=
  .cls (by simpa using ⟨.functor (by simp) h', .functor (by simp) h, allocator_clear a⟩)

theorem priorityQueue_clear {a : Ty} (h : a ≠ .spec .less [void]) : priorityQueue.Clear a :=
  .cls (by simpa using ⟨vector_clear a, .functor (by simp) h⟩)

/-- C116. `std::vector<a>`, `std::list<a>`, `std::deque<a>` and `std::stack<a>` become those of `b`. -/
theorem rebind_sequences (a b : Ty) :
    rebind (vector.of a void) b = vector.of b void ∧ rebind (list.of a void) b = list.of b void ∧
      rebind (deque.of a void) b = deque.of b void ∧ rebind (stack.of a void) b = stack.of b void :=
  ⟨rebind_of (.inr rfl) (vector_clear a) trivial, rebind_of (.inr rfl) (list_clear a) trivial,
    rebind_of (.inr rfl) (deque_clear a) trivial, rebind_of (.inr rfl) (stack_clear a) trivial⟩

/-- `std::map<K, V>` is one only if its allocator is for pairs of its own key and value. -/
def WellFormedMap (t : Ty) : Prop := ∃ k v c, t = map k v c (pair (.const k) v)

/-- C116 is false of maps: the allocator of `std::map<K, V>`, whose parameter is a pair, keeps the old key, so the
result is not a map, for all keys and values and every other target. -/
theorem rebind_map_fails {k v c u : Ty} (hu : u ≠ k) :
    ¬ WellFormedMap (rebind (map k v c (pair (.const k) v)) u) := by
  rintro ⟨k', v', c', h⟩
  have h1 : Ty.spec (.named 0) [pair (.const k) v] ≠ k := fun e => by
    have := congrArg sizeOf e
    simp [pair] at this
    omega
  have h2 : pair (.const k) v ≠ k := fun e => by
    have := congrArg sizeOf e
    simp [pair] at this
    omega
  simp only [map, rebind_named, rebindArgs, Ty.spec.injEq, List.cons.injEq, true_and, and_true] at h
  obtain ⟨rfl, -, -, h⟩ := h
  rw [if_neg h1, if_neg (by simpa [templateType] using h2)] at h
  simp [pair] at h
  exact hu h.1.symm

/-- C116 needs parameters which are the element type to be meant as such: in a pair of two equal types both change. -/
theorem rebind_pair_same (a b : Ty) : rebind (pair a a) b = pair b b := by
  simp [pair, rebind_named, rebindArgs]

/-- A pair of different types, the second of which is no template of the first, keeps the second. -/
theorem rebind_pair {a b v : Ty} (h : v ≠ a) (h' : templateType v ≠ a) : rebind (pair a v) b = pair b v := by
  simp [pair, rebind_named, rebindArgs, h, h']

/-! ### Cases -/

/-- A priority queue of `std::vector<int>`s, with types `3` for `int` and `4` for `double`: the underlying container
is rebound as well, its elements `int` are not mistaken for a parameter. -/
example : rebind (priorityQueue.of (vector.of (.atom 3) void) (vector.of (.atom 3) void)) (.atom 4) =
    .spec (.named 6) [.atom 4, .spec (.named 1) [.atom 4, .spec (.named 0) [.atom 4]], .spec .less [void]] := by
  rw [rebind_of (.inl rfl) (priorityQueue_clear (by simp [vector, Pat.of])) trivial]
  simp [priorityQueue, vector, allocator, Pat.of]

/-- The case of the tests: `hash_set<float, hash_function<float>, std::equal_to<float>>` becomes `hash_set<int>`. -/
example : rebind (hashSet.of (.atom 5) (.atom 5)) (.atom 3) = hashSet.of (.atom 3) void :=
  rebind_of (.inl rfl) (hashSet_clear (by simp) (by simp)) trivial

/-- The containers of the graphs of this library. -/
example (data : Ty) (h : data ≠ noneTy) : rebindContainer (set.of (.atom 3) (.atom 3)) data = set.of data void :=
  rebindContainer_of (.inl rfl) h (set_clear (by simp)) trivial

example : ¬ WellFormedMap (rebind (map (.atom 3) (.atom 4) void (pair (.const (.atom 3)) (.atom 4))) (.atom 5)) :=
  rebind_map_fails (by simp)

end Actl.Rebind
