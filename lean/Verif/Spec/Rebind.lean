import Verif.Model.Rebind

/-!
# Container templates

What a class template of containers looks like: `C<Element, Parameters...>` where each further parameter is the element
type, a type which has nothing to do with it, a comparison or hash of elements, or a class template of the element
type again (an allocator, an underlying container). Nothing here refers to rebinding.
-/

namespace Actl.Rebind

/-- A type with a hole for the element type. -/
inductive Pat
  /-- the element type -/
  | elem
  /-- a type which does not depend on it -/
  | fixed (t : Ty)
  /-- `std::less<K>`, `std::equal_to<K>` or `hash_function<K>`, where `K` is chosen separately: the element type or
  `void`, for which all of them accept everything and do the same -/
  | functor (c : Tmpl)
  /-- `Element[N]` -/
  | arr (n : Nat)
  /-- `std::array<Element, N>` -/
  | stdArray (n : Nat)
  /-- `C<Element, Parameters...>` -/
  | cls (name : Nat) (params : List Pat)

/-- The type a pattern becomes for elements of type `a` and function objects of parameter `k`. -/
def Pat.of (a k : Ty) : Pat → Ty
  | .elem => a
  | .fixed t => t
  | .functor c => .spec c [k]
  | .arr n => .arr a n
  | .stdArray n => .stdArray a n
  | .cls c ps => .spec (.named c) (a :: ps.map (Pat.of a k))

/-- Parameters which do not depend on the element type are neither it nor templates of it by accident, function objects
are of the three kinds, and elements are not such function objects. -/
inductive Pat.Clear (a : Ty) : Pat → Prop
  | elem : Clear a .elem
  | fixed {t : Ty} : t ≠ a → templateType t ≠ a → Clear a (.fixed t)
  | functor {c : Tmpl} : (∀ n, c ≠ .named n) → a ≠ .spec c [void] → Clear a (.functor c)
  | arr {n : Nat} : Clear a (.arr n)
  | stdArray {n : Nat} : Clear a (.stdArray n)
  | cls {c : Nat} {ps : List Pat} : (∀ p ∈ ps, Clear a p) → Clear a (.cls c ps)

/-- The pattern is a container, as opposed to a mere parameter of one. -/
def Pat.IsContainer : Pat → Prop
  | .arr _ | .stdArray _ | .cls _ _ => True
  | _ => False

/-! ### Templates of the standard library -/

/-- `std::allocator<T>`. -/
def allocator : Pat := .cls 0 []
/-- `std::vector<T>`. -/
def vector : Pat := .cls 1 [allocator]
/-- `std::list<T>`. -/
def list : Pat := .cls 2 [allocator]
/-- `std::deque<T>`. -/
def deque : Pat := .cls 3 [allocator]
/-- `std::set<T, std::less<K>>`. -/
def set : Pat := .cls 4 [.functor .less, allocator]
/-- `std::unordered_set<T, hash_function<K>, std::equal_to<K>>`; `ac::hash_set<T>` is that with `K = void`. -/
def hashSet : Pat := .cls 5 [.functor .hashFunction, .functor .equalTo, allocator]
/-- `std::priority_queue<T, std::vector<T>, std::less<K>>`. -/
def priorityQueue : Pat := .cls 6 [vector, .functor .less]
/-- `std::stack<T>`. -/
def stack : Pat := .cls 7 [deque]

/-- `std::pair<K, V>`. -/
def pair (k v : Ty) : Ty := .spec (.named 8) [k, v]
/-- `std::map<K, V, std::less<C>, std::allocator<T>>`. -/
def map (k v c t : Ty) : Ty := .spec (.named 9) [k, v, .spec .less [c], .spec (.named 0) [t]]

end Actl.Rebind
