# Formal model of ACTL: design

Source under study: `/repo` (AlCash07/ACTL, header-only C++). The code is read as
text; nothing in `/repo` is built or run. The model is written in Lean 4 under
`lean/Verif`, built with `lake build` in `lean/`.

## Layout

| directory | content |
|---|---|
| `lean/Verif/Model/*.lean` | executable model of the C++ functions. Each definition cites file and lines and says where it simplifies |
| `lean/Verif/Spec/*.lean`  | small independent specifications (mathematical meaning), which do not mention the model |
| `lean/Verif/Lemmas/*.lean`| helper lemmas |
| `lean/Verif/Props/*.lean` | the property theorems, each beside a non-trivial `example` that meets its hypotheses |

`properties.jsonl` lists the properties, `MANIFEST.json` maps each property to the
theorems that carry it and to its status, `seeded/LOG.jsonl` records the mutation
experiments (bugs seeded in a scratch copy of the model; which theorems noticed).

Naming: a theorem `…_partial` proves part of a property (the note in
MANIFEST and the docstring say what is missing). A theorem `…_fails…` /
`not_…` proves that the property is *false* of the code, by a concrete witness.

## Modelling conventions

* Machine words: natural numbers reduced modulo `2^w` at each operation where the
  property is about overflow (`w` universally quantified), or `BitVec 64` for the
  bit-mixing functions. Elsewhere unbounded `Nat`/`Int`.
* A function that mutates through a reference returns the new value. A loop
  becomes structural recursion, a fold, or well-founded recursion (termination is
  then part of what is checked).
* Undefined behaviour (out-of-bounds access, division by zero, `pop` on an empty
  stack) is a distinct outcome: `none`, or a constructor `ub` of the result type.
  `AC_ASSERT` throws only under `ACTL_DEBUG` and is a no-op in release builds, so
  it is **not** used to rule anything out: a violated assertion on the way to an
  out-of-bounds access is modelled as undefined behaviour.
* C++ templates are modelled for the instantiations named in the comments
  (e.g. random-access containers as lists/arrays indexed by position).
* Geometry is modelled over an arbitrary ordered field (exact arithmetic). Floating point is modelled, by an abstract
  rounding, only in the properties about it (listed under "Not modelled").
* `tests/CMakeLists.txt` excludes `geometry/*` and `graph/*` from the build, so
  those headers are not even instantiated by the project's own tests. They are
  modelled as they read.

## Trusted base

* Lean 4.33.0 kernel.
* Axioms: at most `propext`, `Classical.choice`, `Quot.sound` (checked with
  `#print axioms` for each property theorem; no own axioms, no `sorry`, no
  `native_decide`, no `bv_decide`).
* The reading of the C++ into the model (definitions cite the lines they model).
* The standard library behaves as documented (`std::vector`, `std::stack`,
  `std::queue`, `std::set`, `std::copy`, `std::find`, `std::lower_bound`, ...).

## Plan per property

| id | model | proof |
|---|---|---|
| C01 | `binary_pow` loop over an arbitrary carrier with `mul`, `one` | loop invariant `res * value^power`, for every monoid |
| C02 | `mod_add`, `mod_sub` on `w`-bit words, explicit wrap | case analysis, every `w`, every modulus, incl. the modulus stored as 0 |
| C03 | `mod_mul` (wide path), `mod_mul_binary` loop | loop invariant `r + x*y ≡ const (mod m)` |
| C04 | `mod_div` loop | extended-Euclid invariant `p ≡ a*y`, `q ≡ b*y`, `gcd p q = gcd m y`; termination by `q` |
| C05 | `splitmix64::next` on `BitVec 64` | explicit inverse: xor-shift inverse, odd multipliers invertible mod 2^64 |
| C06 | xoroshiro step on pairs of `BitVec 64` | explicit inverse (linear map over GF(2)), zero maps to zero |
| C07 | literal parser as executed by the templates | induction over the digit list |
| C08 | bit functions on `BitVec w`; flag words of the text format | bitwise extensionality |
| C09 | absolute error policy over an ordered field | order reasoning |
| C10 | `uitoa` and `encode` writing backwards in a buffer | digit list lemma: `ofDigits (digits x) = x`; canonical form |
| C11 | same buffer model, index checked at each write | digit count in base b ≤ digit count in base 2 |
| C12 | `encode` then `integral_parser` | composition of C10 and C13 |
| C13 | `sign_parser`, `base_parser`, `uint_simple_parser`, `integral_parser` as state machines | characterisation against an independent grammar; the known defect ("0" followed by a non-digit) is proved as a negation |
| C14 | chunked driver (`parser_executor`) | parse (s ++ t) = parse s; parse t, for each parser |
| C15 | `boolean_parser`, `encode(bool)` | language equality, round trip |
| C16 | `const_data_parser` | prefix characterisation |
| C17 | `escaped` character table and string writer | explicit decoder, left inverse |
| C18 | `adjustment` and padded writer | arithmetic |
| C19 | `memory<in/out>` as a bounded cursor machine | invariant for histories without get-past-end; negation for those with it |
| C20 | `string<in/out>` device | refinement to list |
| C21 | `buffered_writer` | negation with witness; `_partial` for the histories that avoid the defect |
| C22 | `buffered_reader` | refinement for read; negation for get/peek on a fresh reader |
| C23 | `read_till` for span and string | induction on the data; growth loop terminates |
| C24 | binary read/write of integers, tuples, ranges | round trip by induction on a type code; truncation gives failure |
| C25, C26 | `split`, `trim` loops | characterisation |
| C27 | character class predicates on all 256 chars | finite table, whole domain |
| C28, C29 | adaptors as state machines | refinement to abstract queue / bounded list over all histories |
| C30, C31 | tensor index computation, nested list initialisation | mixed radix bijection; negation for the stride defect + partial |
| C32 | static/dynamic pattern, slot index | rank function is a bijection |
| C33, C34 | maps as association lists/functions | invariants over histories |
| C35 | `irange`, `drange` step count and iteration | arithmetic progression spec; negation for unsigned negative step |
| C36 | cyclic iterator state machine | position congruent to displacement |
| C37 | filtered iterators | equals `List.filter`, forwards and backwards |
| C38 | comparison loops | total order laws |
| C39–C41 | edge list / adjacency list insertion | invariants over histories (see "Graphs") |
| C42 | recursive and iterative DFS emitting event lists | simulation: iterative run = recursive run |
| C43–C45 | consequences for event traces | induction on the recursion; reachability |
| C46, C47 | BFS with queue | queue monotonicity invariant; distance minimality |
| C48 | full DFS with component counter | reachability equivalence on symmetric graphs |
| C49 | Tarjan finder | false of the code: negation with a witness; positive part as `_partial`; exact description of the result with the stamps of a search as ghost state: the relation "same number" is mutual reachability without edges to finished vertices |
| C50, C51 | bridge and articulation finders | low-link theory over the DFS model |
| C52–C57 | geometry over ordered fields | polynomial identities, order reasoning; hull by induction (see "Geometry") |
| C58 | hash combination on `BitVec 64` | congruence, injectivity in last element; surjectivity of the hash of 64-bit numbers gives a unique last element for every hash |
| C59 | `write` through `spaced`, `braced` on value trees | simultaneous induction over values and lists: a flag equals "the last piece was a unit" |
| C60 | ids as positions | list lemmas |
| C61 | seeding from a string | the retry loop leaves a non-zero state and ends for every string, since the default generator passes through every nonzero state (C106) |
| C62 | winding number loop on closed chains | each step is a signed crossing of a ray or stops on an edge; crossings telescope against the angle in `[0, 2π)` |
| C63 | bisection in monotone polygons, conversion from convex ones | crossings of a vertical ray equal those of the horizontal one; only the two edges found contribute; convex polygons have one local maximum; in a simple polygon the two chains are followed from left to right, a change of their order gives a common point |
| C64 | distances, nearest points, crossing tests in N dimensions; the square root is a parameter | squared distance along a line is a parabola; Lagrange identity for the N-dimensional area; perpendicular vectors give the common points |
| C65 | circles, line and sphere, tangents, with output iterators as lists of positioned writes | coordinates along the centre line and its perpendicular; roots of the quadratic; `atan2` is `Complex.arg` |
| C66 | `sort_by_angle` with `std::partition` and `std::sort` as parameters with their contract | the cross product is positive iff the angle is larger, inside a half turn (`Complex.arg`); so `comp` is a strict weak order on each half |
| C67 | `nearest(points)`: divide and conquer with merge by `y` | loop invariant: processed pairs are at least `res` apart; the points outside the strip and those after the `break` are too far by one coordinate |
| C68 | the two nested loops of `antipodal_vertices` on positions, `max_distance` | between a minimum and a maximum of a linear function the edges turn by less than a half turn (three plane vectors are dependent); a farthest pair is the minimum and the maximum in its own direction |
| C69 | `extreme_vertex` on positions with the cyclic neighbours, `tangents` of a point and a convex polygon | binary search on a cyclic sequence with one ascent and one descent, for any comparison that agrees with a key; the key is a linear function of the vertices, or the slope under which a vertex is seen from the point, taken from a separating line |
| C70 | `encode` for floating point numbers: parts, buffer, digits, sign; values in an ordered field with a rounding after every operation | the two parts are those of a multiple of the unit next to the number (error of the operations as a parameter); lengths against the size of the buffer, on the lemmas of `uitoa` of C10 |
| C71 | `float_unchecked_parser` with `parse_int` in blocks of at most `max_length` digits; values in a field with exact arithmetic | closed form of each state of the parser (blocks add up to one numeral), from it that the parser works character by character, hence independence of the buffers; round trip through C70 |
| C72 | `Model/LinePolygon`: the binary search on a chain over positions of a cyclic range; the two extreme vertices are those of C69; the parameters written are a list | the search keeps: the first position has the orientation of the start, the last has another one or is the end of the chain; so the edge found goes down (up) through height 0; a crossing of an edge is in the polygon by convex combination, and conversely the point is left of the two edges found, which bounds the parameter from both sides |
| C73 | `Model/LinePolygon`: the loop over the vertices of a simple polygon; the `int` signs are the orientations | counting modulo 2: what is written at a vertex on the line is the sum of two weights, one per edge at it; summed over the polygon the two weights of an edge on the line cancel unless it passes the parameter, those of the other edges give the half-open crossings of the even-odd rule; spec in `Spec/LinePolygon`. `Props/JordanLine`: every simple counter-clockwise polygon meets the local conditions, as the winding number jumps from 0 to 1 across an edge on the line |
| C74 | `type_at`, `types_slice`, `types_concat` | case analysis on the remainder, induction in steps of 8 and 4; wrapped indices exceed every length |
| C75 | `integer_iterator`, `random_access_iterator_interface`, `front`/`back`/`[]` of ranges | usual arithmetic conversions are exact without overflow, modular for unsigned types; objects with lifetimes for the references |
| C76 | `singly_linked_list_iterator`, `doubly_linked_list_iterator` | induction on the list of nodes in a heap |
| C77 | `limited_input_iterator` | induction on the limit |
| C78 | `indented >>= text` on trees of values | the effect of a value on the format object is that of its outline; mutual induction on the tree |
| C79 | `line_buffered`, with `fgets` and `strlen` as in the C standard | induction on the contents and on the writes |
| C80 | metafunctions on an inductive type of C++ types | induction on what is around a function type; case analysis of qualifiers |
| C81 | `Model/Convert.lean`: the overloads as a recursion on types, with fuel; values as trees of numbers | induction on the fuel and on types; the fuel is shown to be enough |
| C82 | `Model/Expression.lean`: terms of operations, overload resolution with policies, passing of arguments and evaluation, with fuel | soundness by induction on the fuel; completeness by induction on a weight that every formula decreases; policies by computing the resolved expression |
| C83 | `Model/VertexEdgeList.lean` | on top of the ids (C60) and edge lists; invariant that the ends of edges are vertices, kept by every call; the history is an inductive relation |
| C84 | `Model/Angle.lean`: `angle`, `bisector`, `invert` over exact numbers, with `square_root` and `atan2` as parameters | the two products are `len l * len r` times cosine and sine of the angle; angles in (-pi, pi] are determined by these; half angle formulas |
| C85 | `Model/Match.lean`: binding of arguments to parameters by type, constness and value category (no conversions, no ambiguity), the search for the first and the filter for all elements | invocability is the same for the category searched and the category called; lvalues that bind to anything but `T&` also bind as rvalues |
| C86 | `Model/Span.lean`: a pointer is an index into one array, calls end with a value, a failed assertion or undefined behaviour; `size_t` sums wrap at `2^w` | a relation `Views mem s l` between spans and lists; each operation maps it to take, drop, set; the failures for every offset by computing the wrapped sum |
| C87 | `Model/Span.lean`: the copying loop of `copy.hpp` on the same array | invariant of the loop: positions written so far hold the element of the old array given by `sourceOf` (periodic when the target starts inside the source) |
| C88 | `Model/Manipulators.lean`: formats as a tree, overload resolution of `manipulate` worked out by hand, arguments of a call as a list of manipulators and values | induction on the arguments against the settings the manipulators mean; induction on the tree for levels |
| C89 | `Model/Equality.lean`: comparison of sequences of integers of the built-in types, the choice of the type of an array | loops by induction on the remaining indices; the built-in `==` by bounds of the common type |
| C90 | handles of edges: ends and id, `==`, `<`, hash | from the invariants of C41: ids are distinct and designate the edges |
| C91 | recorder of predecessor edges | invariant over the events of a search (`Story`) |
| C92 | operations on built-in integers, their identity elements, `inout` | congruences modulo the width, bit vectors |
| C93 | output parameters over a memory of numbers and bits | induction over the chain of conversions, cases |
| C94 | `Model/CommonType.lean` | the fold of `strict_common_type` and of `common` by induction on the arguments; the common type of a list is characterised as the widest promoted type (so independent of order); conversions are unique among valid values congruent modulo the width |
| C95 | `Model/Adaptor.lean` | simulation: every statement on adaptors over an array commutes with the same statement on pointers into the array of transformed elements, then induction on the program |
| C96 | `Model/Built.lean`: adjacency lists of `Model/AdjacencyList.lean` seen through `vertices()`, `out_edges`, `source()`, `target()` | `Shows`: the graph a search sees has the vertices 0..n-1 and links exactly what the calls link (`Spec/Built.lean`); the theorems of the searches transported along it; for bridges the handles returned by the calls are the edges and `flip` reverses them; without an edge container (`Props/BuiltN.lean`) the i-th edge from u to v is paired with the i-th from v to u, which exists because both are counted by the same calls |
| C97 | `Model/Composite.lean`: composite operations on ranges and tuples over the scalar comparisons of `Model/Expression.lean`, resolved for argument types with a stack of policies | induction on the pair of types: what `is_equal` (`compare3way`) is resolved to, that it tells `Close` (returns `order`) of `Spec/Composite.lean` for all large enough fuel, and what a policy makes of it; failures by showing there is no value for any fuel |
| C98 | `Model/TextTree.lean`: `write` and `read` of one argument by recursion on its type (integers, booleans, characters, strings, tuples, arrays, vectors, lists), over the number and boolean texts of C12–C14 and string reading of C23 | mutual induction on types: writing appends the pieces of `Spec/TextTree.lean` joined by the separator; a reader is *good* for a list of pieces if it gives the value and stops behind them when every piece survives (`Token.Kept`: no zero or word without a whitespace separator followed by anything, no whitespace in words, no empty word before text and no whitespace character if whitespace is skipped), and never gives the value otherwise; goodness is closed under sequencing and nesting |
| C99 | `Model/FileDevice.lean`: C streams (contents, position, end-of-file indicator, last direction) and the file device on top of them, `skip` with fuel | case analysis over the modes; `get`/`read` in closed form, then induction over the operations; skipping by induction on the characters left |
| C100 | `Model/BinaryAssoc.lean`: `write` and `read` of sets and maps on top of C24, with the elements as lists in order of iteration and the comparisons as parameters | structural induction: reading what was written restores the value or fails, depending on the keys; inserting in order appends; keys are matched as constants (C14) |
| C101 | `Model/Biconnected.lean`: the finder of C51 with its stack of edges and the caller's map, `none` for a missing key | simulation by the finder of C51 for the marks; invariant of stack and map by induction on the run of the search (every edge towards the root of a finished vertex is on the stack or numbered; the stack is empty when only the root is active); in forests the stack holds the edges from active vertices to their parents, and numbers are those of the lower ends; exactly: the stack, read from the log of events, is made of segments each of which took off what it put on, and the times in the finder agree with the final ones whenever used |
| C102 | `Model/Steps.lean`: copies of `TwoStacks`, `extremeVertex`, `intersectConvex`, `convexHull`, `nearestPair`, `binaryPow` that also count their operations; an exhausted iteration bound is `none`. Calls of standard sorts are not counted | erasure (the first component is the function itself) together with the bound; potential function (queue), halving of an interval, amortisation against `last` (hull), packing: at most four points pairwise `r` apart in an `r` by `r` box, hence ten steps per point and level (closest pair) |
| C103 | `Model/IntGeometry.lean`: copies of `orientation3`, `convexHull`, `withinTriangle`, `windingNumber`, `withinSimple`, `polyArea` on signed integers of `w` bits (differences) and `W` bits (products; `product` is declared nowhere in the snapshot, so its width is a parameter); overflow and reads outside an array are `none` | doubled area of a triangle in a square of side `D` is at most `D²`; each loop by induction equals the exact model under the cast to a field, so C57, C60 and the others carry over |
| C104 | `Model/TensorAccess.lean`: subscript and call operators of `tensor.hpp` with their assertions, views, the rank as the template argument it is | both operators reduce to the row-major position of C30; induction over the dimensions |
| C105 | `Model/RingElement` (`stepOp`, `runOps` over a store of variables) | simulation of every operation by the relation `Meaning` on `ZMod M`; invariant: all variables below `M` |
| C106 | `Model/Random` (`xoroNext`, `xoroIter`) | the transition is linear over GF(2); polynomials (bits of a number) act on states; a polynomial of degree 128 acts as zero (128 one-bit states by computation, the rest by linearity), so products can be reduced modulo it; `x^(2^128) = x` by a checked table of squares; for every prime `q` of `2^128-1` an inverse of `x^((2^128-1)/q) - 1` is exhibited and checked; primality of the largest one by Lucas |
| C107 | `Model/MapTree` (trees of maps with their state in the leaves) | induction on trees; spec: `read` (composition of functions), `cell` (place of storage), `Dom`; every operation extends `read`, places never change, so a history reduces to the last write to a place |
| C108 | `Model/TextDevice` (the reading and writing of `TextTree` as calls on a device) | a device is `Faithful` to its unread characters; simulation of `TextTree.read` by induction on types, with the step law of the parsers (C14) for the cut into buffers; writing is sending the interspersed pieces (characters by `write(char)`, the rest by `write(span)`), then `writer_iff` (C21) |
| C109 | `Model/BinaryDevice` (the reading and writing of `Binary` as calls on a device) | a device delivers its unread characters; simulation of `Binary.read` by induction on types; writing is sending the bytes of the numbers one by one, then `writer_iff` (C21) and `write_out` (file device) |
| C110 | `Model/Inorder` (`inorder_printer` as a component of the depth-first search) | the run of the search determines the tree (`Grows`), the printer is an interpreter of the run; lengths by induction on forests; binary trees by growing the tree of the graph |
| C111 | `Model/MixedGraph` (vertex container of C60 and the edges of C41 together; histories `Made`) | one invariant over any history: `NInv` of C41 on the vertices of the moment, and what every id returned designates; searches by the theorems on arbitrary graphs |
| C112 | `Model/Traversal`, `Model/Bfs`, `Model/Recorders` (terminators) | the events are those of the search without terminator, cut at the first discovery (breadth) or start (depth) of a terminator; a prefix of a story is a story, so the predecessors recorded up to there form a forest; breadth-first discoveries are sorted by distance |
| C113 | `Model/SearchMemory` (counting copies of the loops), fuel of `Model/Traversal`, `Model/Bfs` | over the reference run the loop makes exactly one step per edge examined and vertex finished, so it returns iff the fuel is enough; the stack grows by at most the vertices discovered; the counts of the loops equal a counter read off the events (`Props/SearchPeak`) |
| C114 | `Model/Recorders` | bounds over every prefix of the events: times count starts, components count finished searches, distances are below the number of vertices discovered |
| C115 | searches in monotone and convex polygons, tangents, antipodal vertices, comparisons by angle on machine integers | simulation of the exact model; the product of two edges of a convex polygon is a difference of two doubled areas of triangles in the box |
| C116 | `rebind_t`, `template_type`, `rebind_container_t` as functions on types | induction over templates with a hole for the element type; sizes of types tell a template from its parameters |
| C117 | objects, lifetimes and references in stored expressions | invariant: the content of every object is what was stored at its creation; lexicographic induction over time of creation and nesting against a semantics over the statements executed |
| C118 | `Model/TextAssoc.lean`: sets and maps in the text formats on top of `Model/TextTree.lean` | text: induction on types with colons as flags of the pieces; sets: positions of C98, insertion at the end of a sorted list; maps: invariant that keys of all read entries are value-initialized |
| C119 | `Model/Winding` (no new model) | Jordan curve theorem for polygons over any ordered field: moving the point along a segment changes the count by the signed number of edges crossed (the rest telescopes, `Lemmas/Jordan`); disjoint segments are separated by a line, so they stay disjoint after a small move (`Lemmas/JordanTube`); one can walk from corner to corner on one side of the border (`Lemmas/JordanCorner`, `Lemmas/JordanWalk`), and from every point to the first border point on a ray (`Lemmas/JordanSides`); spec in `Spec/Jordan` |
| C120 | `Model/PolyOrientation`: `min_element` with the order of points, then the turn at that vertex | the corner at the least vertex is not flat in a simple polygon; sign of the area (`Lemmas/JordanArea`): cut at the heights of the vertices, in each strip the area is the height times the signed sum of the crossings of its middle, which is a sum of lengths weighted by the winding numbers of C119 |
| C121 | `Model/PointOps`: loops over the coordinates; operands taken by reference are read anew in each step and may be (a coordinate of) the point itself | invariant of the loop: the coordinates before the current one are final, the others old |
| C122 | tensors with their storage: constructors, copy, move, assignment, swap, destructor, `tensor_view`, subscripts, access, iteration; blocks of cells with lifetimes | simulation by contents indexed by tuples; index tuples in order are the cells in order; every block has one owner |
| C123 | `float_unchecked_parser` with a rounding after every operation and conversion | the exact parser (C71) and the one with rounding go in lockstep; relations between their states: relative error with a counted number of roundings, and equality as long as the exact value is a small integer; a short number by direct evaluation; the negations by evaluation with rounding to 53 digits |
| C124 | `Model/RealTree.lean`: the types of C98 and floating point numbers (C70, C123) in tuples, arrays and containers | a reader is good for a list of pieces and a predicate on values instead of one value; a number inside a text is read by one conversion before and one after the point, so C123's bound of five roundings applies whatever surrounds it; everything else reuses the positions of C98 |
| C125 | `Model/FloatGeometry.lean`: the functions of C46, C62 and others on points with a rounding after every operation; the algorithms take the orientation test as a parameter | every rounding is a factor, and factors are counted: three in each product of the test, so an area above `(1 + u)^3 - 1` times the products has the right sign; on a grid nothing is rounded; a test that is right on the points given makes every algorithm run as the exact one; with any test that calls equal points collinear an invariant of the stack gives safety; the negations by evaluation with 53 digits |
| C126 | `Model/FloatAngle.lean`: `sort_by_angle` with a rounding after every operation | the comparison is exact for directions that are apart, as the two products have one rounding each; an identity between the three areas makes it a strict weak order in either half of the plane; a monotone rounding cannot reverse the comparison of the two products; the negation by evaluation |
| C127 | `Model/Numbers.lean`: comparisons, `abs`, `sgn`, `max` and `absolute_error` on all built-in types: conversions to the common type, rounding, overflow, infinities and NaN | a conversion keeps the value or adds a power of two; rounding is monotone, odd and keeps the tolerance, so the rounded difference is on the right side of it |
| C128 | `Model/FloatLines.lean`: `intersect`, `crosses` and `within` of lines in the plane and `distance` of points, with a rounding after every operation | every rounding is a factor near 1, so an area is off by at most a multiple of its two products, and a number larger than its error has the right sign; the quotient and the point follow; on a grid areas are exact, so the decisions are; a sum of squares keeps a relative error |
| C129 | `Model/FloatClosest.lean`: `nearest` of points, `antipodal_vertices` and `max_distance`, with a rounding after every operation | the invariant of C67 with "the square of the result is at most (1 + u)^7 times the square of the distance": a pruned pair has a coordinate difference whose rounding is at least the result; squares of distances on a grid differ by a whole number of units, more than the errors |
| C130 | `Model/FloatPolygon.lean`: `within` of monotone and convex polygons with the orientation test as a parameter, `extreme_vertex` and `tangents`, with a rounding after every operation | the searches only look at signs of areas, which are exact on a grid or when larger than their error (C125); positions stay in range for every comparison |
| C131 | `Model/IntLines.lean`: `area` and `orientation` of a point and a line, `within`, `intersect` and `crosses` of lines, rays and segments with integer coordinates; `ratio`, declared nowhere, is a parameter | differences are at most `D`, so products are at most `D²` and areas `2D²`; comparisons of integers are those of the same numbers in an ordered field; the diagonals of the square reach the bound, in one order only through the negation in `cross_test` |
| C132 | `Model/FloatProject.lean`: `project`, `reflect`, `nearest` and `distance` of a point and a line or plane, every operation rounded by `fl` | the error of a rounded scalar product is a multiple of the sum of the absolute products; the parameter chosen by the signs of rounded products is near that of the nearest point in each of the nine pairs of cases; the distance from a point of the line changes no faster than the point (triangle inequality) |
| C133 | `Model/FloatLinePolygon.lean`: `intersect` of a line with a convex or simple polygon, every operation rounded by `fl`, and the conversion of parameters to points | a set of points on which differences, areas and inner products are exact makes every branch the same as in exact arithmetic, so C65 applies and only the quotients are rounded; the halving loop ends iff it starts from two different vertices |
| C134 | `Model/IntLinePolygon.lean`: the same `intersect` on integer points, `none` where a result does not fit | all differences are at most D, so areas and inner products are at most 2*D*D and every branch is that of exact arithmetic; a relation between exact and computed quotients is carried through the lists; C65 and C133 give the rest |
| C135 | `Model/IntClosest.lean`: `nearest` and `max_distance` with every integer operation checked; the square root and the conversion to the type of distances are parameters | the invariants of C67 with "the computed distance is not less" in the place of distances; a rounded root is monotone and, on a small range, strictly monotone because squares of rational numbers are dense; furthest vertices from C115 and C68 |
| C136 | no new definitions: `convex_hull` composed with `within`, `max_distance`, `extreme_vertex`, `tangent_vertices`, `intersect`; `Spec/HullQueries.lean` says inside and border without polygons | an affine function that is not negative at the points is not negative between them; each vertex has an affine function that is zero there only, so that polygons with the same content have the same vertices, and two successors of a vertex would each be left of the other; a point strictly inside can move a little in any direction |
| C137 | `Model/Bundles.lean`: assignment to bundles of edge lists, adjacency lists with and without edge container, and vertices; `Spec/Bundles.lean` has programs of additions and assignments and the calls they amount to | an assignment commutes with a later addition and merges with the addition of its edge (for any store with these two properties, `Commutes.run`), so every program can be brought to one without assignments, about which C39 and C90 say what is read; for the containers by describing an assignment as a map over the elements that keeps the keys |
| C138 | `Model/MixedEdges` (as C111 with the edge container of C41; histories `MadeC`) | vertices: by a graph without an edge container that gets the same calls (`Shadow`) and C111; edges: `CInv` of C41 on the vertices of the moment; searches by `Displays` of C111 |
| C139 | `Model/LineObjects.lean` | conversions to a type change a value by a multiple of the number of its values, so `end()` is the second point modulo that number and hence equal to it; a narrow type computes in `int` without overflow; programs by a simulation between objects and the figures they are meant to hold |
| C140 | `Model/MixedWrites.lean` | assignments to edges commute with insertions, so that the graph is one that insertions with the final bundles reach; the vertices differ from those of that graph only by the values last assigned, which appending and resizing preserve |
| C141 | `Model/AdjacencyList.lean` (`AdjC.findEdge`), `Model/MixedWrites.lean` | `find_edge` is the first of the out-edges with the target, whatever the container; those are the handles of the calls, in the order of the calls for sequences; sums by induction over the edges |
| C142 | `Model/MixedWrites.lean`, `Model/Connectivity.lean` | out-edges are the handles of the calls, so dropping a handle is dropping an edge of the graph; then C50 for `find_bridges`, and the searches of C109 for the rest |
| C143 | `Model/GeoText.lean` | the classes are tuples of their members for the formats, an empty base is an empty tuple; then C98 and C24 |
| C144 | iterators of filtered ranges as positions, programs of moves, nested filters, loops that assign | invariant: index of the position among the elements that satisfy the predicate |
| C145 | the loop of `ranges::copy` with the reader a filtered iterator, in one vector | invariant: the vector from the reader on is untouched, the writer is not behind it |
| C146 | `Model/UnitFlush.lean`: units of calls, each followed by a flush, on the buffered writer of C21; as a port of the tree of formats (C108) | induction over the units with `writer_iff`; the spans of a value are units of one call |
| C147 | `Model/FailingDevice.lean`: any device that returns how many characters it took, with the writing of C108 and C109 | the outcome (a beginning of the text, success iff all) composes along `&&`; induction over the type |
| C148 | `Model/BufferedOver.lean`: the buffered writer of C21 with the calls of the base made one by one on a device of C147 | simulation of the writer of C21: same buffer, and the chunks sent together are its sink |
| C149 | `Model/TextTree` (as for C98), `Spec/ReadProgress` (least number of characters per piece) | induction over the type with "at least k characters eaten" composed along the steps; the integer parser is not ready before its first character |
| C150 | `Model/Binary`, `Model/BinaryDevice`, bytes of a value as in `Spec/BinaryDevice` | converse of the round trip by induction over the type; the encodings are a complete prefix code (every byte sequence begins with one or is the beginning of one); lifted to devices by C109 |
| C151 | `Model/BinaryAssoc` (as for C100), `Model/TextAssoc` (as for C118) | insertion keeps a sorted list sorted, keeps its elements and adds an equivalent; loops that may stop early keep an invariant of the container; elements by C150 |
| C152 | `Model/Connectivity` and `Model/Traversal` (as for C48, C50, C51) | from the theorems for the single searches; a path avoiding an end of a bridge does not use the bridge |
| C153 | `Model/Recorders`, `Model/Connectivity` (as for C45, C49) | induction along a path: some vertex mutually reachable with the start is finished no earlier than the path's end, by nested or disjoint intervals |
| C154 | `Model/Connectivity`, `Model/Recorders` (as for C48, C50) | removing the bridges output one after the other makes one class more each time, from the connected components to the two-edge-connected ones |
| C155 | `Model/Traversal`, `Model/Recorders` (as for C46, C48) | recorded distances are least lengths of walks (C46); walks are appended and reversed |
| C156 | `Model/Hull` (as for C57) | uniqueness of strictly convex polygons with the same contents (C136); scaling and moving keeps turns and the order of points |
| C157 | `Model/Binary` (as for C150) | reading from the same bytes gives one value and one rest; induction on the sequence of calls |
| C158 | `Model/Traversal`, `Model/Recorders` (as for C44) | nested or disjoint intervals (C44); without edges back the finishing times decrease along edges |
| C159 | `Model/TextTree` | reading is a function, and C98 says that it gives both values back; the failure by unfolding the writer |
| C160 | `Model/TextTree` | induction on the type: texts of numbers (sign, prefix, canonical digits), booleans, characters and strings are told apart together with what follows |
| C161 | `Model/TextAssoc` | the induction of C160 for any set of bytes that end a piece, here the first bytes of the separator and of the colon |

### Graphs

A search is modelled with its components (visitors) as arbitrary state transformers, so each
statement about the search holds for every visitor. The explicit-stack loop is proved equal to a
recursion (`Run`), from which the recorded event list (`Explores`) follows; bridge, articulation and
component finders are then visitors whose state is tied to the recursion by an invariant (stamps of
discovery, low numbers, the stack of the finder). BFS is proved with a queue invariant. Storage
(edge lists, adjacency lists) is modelled over the container operations of `Model/Ids.lean`; the
invariants (`NInv`, `CInv`) relate every slot of the out-edge containers to the history of
insertions.

### Geometry

Scalars are an arbitrary linearly ordered field (areas: a commutative ring). The policy arguments
are dropped, with exact comparison. Points are `Fin n → F`. The geometry headers include files that
do not exist and use undeclared names (`P`), so they do not compile; they are read as text with the
evident meaning. The hull is an array algorithm refined to a stack; the invariant of the stack
(`Chain`) says that it turns left everywhere and that every point met is on the left of it; the main
identity is the transitivity of "left of" for lexicographically ordered directions. The output of the two passes is then
joined, and membership in the hull is shown by an explicit fan triangulation.

### Not modelled

* Failure of the device in the middle of a formatted write (`write` returning false), except where a
  property is about it (C18–C22, C108, C109, C147, C148).
* IEEE rounding: C70 and C123 (output and input of real numbers) have an abstract rounding after every operation,
  without overflow, underflow and fused operations, and so have C125, C126, C128 to C130, C132 and C133 (projections, distances from lines and planes, lines and polygons, searches in polygons, closest and furthest points, orientation, convex hull, point in triangle and polygon, area, sorting by angle, intersection of lines, point on a line, distance);
  C71 (parsing them) has exact arithmetic; the rest of geometry is over ordered fields, with the integer types in their own
  properties.
* Compile-time machinery, apart from the traits that have a property of their own (C80, C94, C116). The overload that is
  chosen is read off the constraints by hand and cited.
* Declarations that never compile: `function_output_iterator`, `input_device_iterator` and `output_device_iterator` (the
  static assertions of `basic_iterator_interface` fail), the category of `dummy_output_iterator` (a typo in its name), the dual range
  interfaces, the friend `swap` of `line`, filling a tensor with a value of another type than its elements,
  hashing a range of ranges, of pairs or of tuples (`hash_combine` precedes these overloads of `hash_value`, and argument-dependent lookup does not see `ac`),
  `adjacency_list::degree` (`out_edges` is a range of forward iterators, which has no `size()`), `adjacency_list::add_edge` of two values
  (`add_vertex` is not found in the dependent base).
* Graph generators, adjacency matrix, flow, matching, spanning trees, shortest paths: the headers are
  empty.

## Where the code and the property disagree

(kept up to date as the proofs proceed; each entry has a Lean witness)

* C04: dividing by 0 modulo 2^w (stored as 0) is undefined instead of an exception (`modDiv_ub`).
* C09: the absolute policy is wrong for unsigned operands (`unsigned_not_trichotomy`).
* C13/C12: an integer read from `"0"` followed by a non-digit character yields a
  garbage value (`"0 "` read as int gives -16): `uint_simple_parser` stores the
  rejected digit in `x` and `integral_parser::ready` still reports success.
* C17: control characters other than NUL and `\a`..`\r` are written raw.
* C18: padding on a full memory device divides by zero.
* C19, C20: `memory<in>::get` past the end moves the pointer beyond the end; a following
  `read` computes a huge remaining size and overruns. Wide characters are copied incompletely.
* C21: `buffered_writer::write(span)` does not reset its pointer when the data ends
  exactly at the buffer boundary; flushed data is written again. `writer_iff` describes the
  histories that are right.
* C22: a fresh `buffered_reader` returns `Char{}` from `get`/`peek` until `read` is called.
* C22: `move` back over a refill of the buffer fails an assertion (a TODO in the code), so a character got at the
  end of the buffer cannot be put back.
* C23: the unbuffered `read_till` consumes the terminator, the buffered one leaves it; skipping with a
  string literal as the set includes the NUL and overruns.
* C24: reading a container without random access into a non-empty target appends.
* C28: `queue_using_stacks` calls `pop_back`, which `std::stack` lacks.
* C29: a copy of `array_as_vector` keeps an end iterator into the original.
* C31: strides of nested initialisation use `dims[i-1]` instead of `dims[i]`.
* C30, C104: `t[i]` of a tensor of rank 2 and more compiles only if all dimensions are in the type: `tensor.hpp:313` makes a
  `span` of non-const elements from const ones, and `:314` cannot deduce the argument of `compute_product`. The theorems about
  chained subscripts of other tensors read it with the evident meaning. `tensor_fixed` with a dynamic dimension does not compile.
* C122: a list with too few dimensions is read beyond its end, of too many the rest is ignored; dimensions with a product of
  2^64 and more are accepted; `size()` of a tensor that was moved from is 1 or what it was.
* C33: numbers given by the accounting map wrap; C34: `shift_map` may narrow.
* C35: `irange` with unsigned type and negative step; `drange` over a whole type or down to the lowest
  value.
* C36: `operator<` of the cyclic iterator is never true.
* C38: a proper prefix of a range is ordered *after* the range.
* C39, C60: ids of random access containers are `int` and wrap at 2^31.
* C41: `edges()` of a graph without vertices is undefined; so is `find_edge` of an absent edge, and
  endpoints that are negative or the greatest `int`. The bundle of an undirected edge without edge
  container is forwarded twice, so an rvalue is moved from at the second end.
* C46: a source listed twice is discovered twice.
* C49: `find_strong_components` separates strongly connected vertices.
* C51: `find_articulation_points` never propagates low numbers from finished children and marks too
  much.
* C54: outside the plane, the first point of a line is reported not on it.
* C55: for lines on one carrier, a closed end touching an open end is reported as common; a
  degenerate second line is not tested against the first.
* C56: `rotate` uses the matrix `(cos sin; sin cos)`.
* C57: collinear sets return only their minimum.
* C58: `0.0` and `-0.0` are equal and hash differently. Two equal unordered sets may hash differently, since the hash of a range follows its order. A number other than 0 hashes differently as `int` and as `long`, although `hash_function<>` is declared transparent with `std::equal_to<>`.
* C59: a `std::string` is braced as the list of its characters; a `std::array` is both a container and
  a tuple, which makes the encoding ambiguous, so it gets no brackets.
* C64: the distance to a degenerate segment divides zero by zero (the nearest point is right);
  `crosses(plane, sphere)` is true for the planes that miss the sphere.
* C65: identical circles divide by zero; the point form of line-sphere writes every point to one
  position; `tangents` returns the iterator it was given; the tangent angles are too small.
* C66: `sort_by_angle(points, origin)` compares the directions of the points from (0, 0), not from
  the origin.
* C68: `antipodal_vertices` misses one of the four pairs of two parallel edges; a polygon with two
  vertices or none is read out of bounds.
* C70: `encode` of a floating point number: undefined behaviour for 2^64 and more, for base 0
  (`detect_base`, division by zero), for 20 decimal or 64 binary digits with a sign and a point (one
  char before the buffer), for a base prefix (bases 8 and 16 with `showbase`: written before the
  fraction, too); 64 and more digits of an even base: the next integer is written.
* C123: a floating point number that is read is not the nearest one (`0.3`), and depends on where the input buffers end
  (`0.75`).
* C125: in `double`, three points far apart and not on a line have a convex hull of one point, and four points one with a
  reflex corner.
* C126: three points of `double` for which the comparison that `sort_by_angle` passes to `std::sort` is not a strict weak order.
* C75: `<` of integer iterators over an unsigned type is never true (the unsigned difference is compared with 0); `it - 1u`
  of a 64-bit iterator adds 4294967295; `front()`, `back()` and `[]` of integer ranges return references to members of
  destroyed iterators.
* C76: `--` of the end iterator of a doubly linked list fails its assertion.
* C77: a limited input range with limit 0 is not empty; the range cannot be iterated with input iterators because
  `iterator_adaptor` gives `==` to forward iterators only.
* C78: strings are ranges, and `indented` leaves ranges alone, so a string gets no line of its own; the colon of a map
  entry gets an empty line.
* C79: the line buffered reader reads nothing into a span of one character, takes a zero character for the end of the
  data, and never fills a span, so reading a span reports failure; the line buffered writer has no `return`.
* C80: a pointer to a pointer to a function counts as a free function; changing a property of a function pointer loses
  the pointer; volatile function pointers have no traits; `&&` cannot be added to a member function with `&`.
* C81: converting a vector of numbers to a vector of vectors makes a vector of `n` zeros of each number `n`; an empty
  tuple converts to every sequence, with default values; a tuple whose only element is a tuple of two does not convert
  to itself; `can_convert_to_v` holds for any two dynamic ranges, also where the conversion does not compile.
* C82: `sgn` with the policy `absolute_error` ignores the tolerance, because an expression with a constant as argument is
  taken for resolved; operations given by an expression (`squared`) do not compile with an `inout` argument; `add` and
  `multiply` have no overload for an integer and a floating point number.
* C83: `try_add_edge` takes negative vertices (no assertion) and stores an edge that ends at no vertex; the inherited `resize` drops vertices without their edges; `graph[u] = x` writes into the elements of a set. `remove_vertex` is declared but not defined.
* C85: `find_first_matching` tests elements as rvalues that are not const, whatever the tuple; `invoke_if_can` asks
  `is_invocable_v<T, Args...>` with `Args` deduced from `Args&`, that is about rvalues, and skips functions of `T&`.
* C86: `subspan(offset)` with an offset beyond the size is never reported: `offset + (size() - offset)` wraps
  around to the size, so that the assertion holds. The result is undefined behaviour or a span of nearly
  `2^64` elements (`subspanFrom_beyond_fails`). The same happens to `subspan(offset, count)` when the sum wraps
  around (`subspan_overflow_fails`). Two pointers in the wrong order make a span of nearly `2^64` elements
  (`makeRange_reversed_fails`).
* C88: `hex`, `octal`, `decimal` and `detect_base` are manipulators, but there is no `manipulate` for them, so
  that `write(device, format, hex, 255)` writes `255` (`base_ignored_fails`). Flag manipulators such as
  `boolalpha` do not compile with a composed format (ambiguous) nor with a static one
  (`flags_compile_fails`).
* C89: elements are compared with the built-in `==`, so `-1` equals `4294967295u`; built-in arrays have no overload.
* C90: in an undirected adjacency list without an edge container an edge seen from its second end differs from
  the handle returned for it, and `graph[e]` of an in-edge reads the out-edge of the other end at the same position.
* C92: `min` calls `less`, which is not declared; `identity_element` of `bit_and` is `T{-1}`, a narrowing error for
  every unsigned type; `add`, `bit_or` and `bit_xor` are declared associative, but are not across types
  (`(x + 0u) + 0l` is not `x + (0u + 0l)` for any negative `x`), nor where one order overflows.
* C93: `out<std::span<T>>{x} = y` assigns a temporary copy of the view: no element changes and the source is returned;
  from a temporary of the same class the wrapper is rebound.
* C94: `strict_common_type` builds `T{}` to name the type, so two equal types without a default constructor do not
  compile; `identity_element<Common, T>` is `none`, which `common` accepts with no number; `common | allow_promotion`
  compares after conversion, so `-1` and the largest unsigned number have a "common" value.
* C95: `it -= k` is `it += -k`, and `-k` wraps for unsigned `k` as wide as `int`.
* C97: for ranges and tuples `compare3way`, `is_less` and `is_greater_or_equal` ignore `absolute_error` (the resolved
  element comparison is an expression, to which no policy applies; `compare3way < 0_c` counts as resolved), while
  `is_greater` and `is_less_or_equal` do not compile with it and otherwise use the containers' own `<` (the formula
  `r_ < l_` is resolved for the types of the placeholders); so a range is both less and greater than its proper prefix.
  Comparisons of one-element tuples do not compile: the composite passes a single inner operation as it is, and
  `get<0>` is applied to it.
* C124: as C98 for the integers and sizes next to real numbers; real zeros are read back, the parser of real numbers does not have that defect.
* C98: a zero (also the size 0 of an empty container) followed by anything is read back as another number, because of
  the lone-zero defect of C12/C13, so `std::pair{0, 5}` written as `0 5` does not read back.  Skipping whitespace, an empty
  string followed by text takes that text.  `read_text_iff` says that these are the only obstacles, besides whitespace in
  strings and separators that do not end them.
* C99: `in | out` opens with `w+`, which empties the file, and `trunc` (all of `in`, `out`, `app`) with `r+`, which does not.
  `peek` is `get` and moving back by one, but at the end `get` does not move: the last character is delivered again and
  the end-of-file indicator is cleared (for an empty file the seek fails and the assertion with it).  Hence skipping white
  space at the end of a file never reaches the end.  Input after output (and the other way round) without a `move` or
  `flush` in between is undefined in C; the device does not care.
* C100: `key_representation` casts to `Pair::first_type&`, but `first_type` of the elements of `std::map<Key, T>` is
  `Key const`, so the key stays constant.  In binary format constants are compared with the input, so a map is read only if
  all its keys are zero; keys that are dynamic containers do not compile.  (With `text`, integer keys do not compile either,
  since `parser_executor` assigns to a constant; not modelled.)
* C101: what a vertex reaches through its children is never taken into account (`low` is set by non-tree edges only, as in
  C51), and edges are popped while both ends are not older than the vertex, not up to the tree edge.  So a cycle may get two
  numbers, and a bridge may get the number of an edge of another component.
* C30, C104: the subscript operator of a tensor of dynamic rank (`tensor<T>`) takes the number of dimensions to read from its
  template argument, which is `dynamic_size`, so it reads outside the vector of dimensions for every tensor and index.
* C105: the constructor of `ring_element` (ring.hpp:127-128) stores its argument unreduced, so
  elements made from numbers outside `[0, m)`, negative ones included, are not the residues of
  these numbers, and `==` distinguishes elements of the same class. `check()` (ring.hpp:186-188)
  compares with the stored modulus, which is 0 for the ring modulo `2^32`.
* C107: `filtered_map` inherits the operations of the map it wraps (filtered_map.hpp:76) and relies on
  one user-defined conversion, so a filtered map of a filtered map has traits promising `get`, `put` and
  `invert` that do not compile. The pairs of a `composite_map` hold a pointer `M2*` (composite_map.hpp:25)
  or `M1*` (:40), which does not compile when that map is held by reference, as for lvalue arguments.
* C108: the buffer of a new `buffered` reader is empty and only `read(span)` or consuming its last character fills
  it (buffered.hpp:35-40,86-93), so `read(device, fmt, x)` fails on a new reader for every number, boolean and
  container and gives an empty string for every string. The writer sends waiting characters twice when a piece
  ends on a boundary of the buffer (C21): the pair (12, 34) through 3 characters arrives as `12 1234`.
* C109: with a `buffered` writer whose size is a multiple of 8, every vector of numbers that does not fit into the
  buffer arrives corrupted, because some element ends exactly on the boundary (`vector_corrupted`); success is reported.
* C110: `inorder` keeps its states in `char`; where `char` is unsigned every vertex counts as discovered and only the source
  is put out (`inorder_unsigned_fails`).  On binary trees "the output is standard" only if no vertex has a right child but no left
  child, since a graph does not tell a right child from an only one (`inorder_binary`).
* C111: `remove_vertex` leaves the edges that lead to the vertex (`removeVertex_dangling_fails`) and does not renumber ends
  (`removeVertex_shift_fails`).  `add_edge` of two values (`adjacency_list.hpp:339-348`) calls `add_vertex` unqualified, a member of
  a dependent base, and does not compile; it is not modelled.
* C112: the depth-first search of the whole graph ignores the result of the terminator: it goes on with the next source
  (`dfsAll_terminator`), and the vertices on the way to a terminator are never finished.
* C116: `std::map` and `hash_map` cannot be rebound: the allocator of pairs keeps the old key (`rebind_map_fails`).
* C118: maps cannot be read as text. `const_cast<Pair::first_type&>` keeps the `const` of the key, so reading does not compile for number keys, and compares strings in keys (also in arrays and tuples) with empty ones, so a `std::map` never gets a second element.
* C121: `operator*=` and `operator/=` of points (point.hpp:137-145) take the factor by reference and change the coordinates one after the
  other, so `p /= p[0]` leaves all coordinates but the first as they were (`divAssign_eq`).
* C127: `is_less_or_equal` is `!is_greater`, so it holds for NaN, and so does `is_greater_or_equal`; with a tolerance
  NaN is equal to everything. Numbers of a signed and an unsigned type, and a tolerance of an unsigned type, are compared
  after conversion to the unsigned type (`mixed_signs`, `tolerance_unsigned_fails`). `abs` of the lowest `short` is negative.
* C128: the computed common point of the segment from `(0, 0)` to `(5, 3)` and the line `x = 1` is not within the segment; two lines
  through the origin with the vectors `(1 - 2^-52, 1)` and `(1, 1 + 2^-52)` are reported to coincide.
* C129: of the points `(-1, 0)`, `(2^-60, 0)` and `(1, 0)` of `double`, `nearest` returns the first two, although the last two are
  closer (`nearest_rounded_fails`): both distances round to 1.
* C130: for the triangle `(12, 12)`, `(24, 24)`, `(1/2, 1/2 + 2^-53)` of `double`, which is strictly convex, `antipodal_vertices` and
  `max_distance` read past the end of the polygon (`antipodal_rounded_ub`): two edges are collinear for the rounded test, and nothing
  stops the outer loop.
* C131: with products of the type of the coordinates (`int`), `crosses` of the two diagonals of a square of side 32768 overflows; in one
  order the areas themselves fit and the negation of the smallest `int` in `cross_test` does not.
* C132: with `double`, `project` of the point `(1, 0)` on the line through the origin with the vector `(49, 0)` is not `(1, 0)`, and
  neither is its reflection: on the line, points are not fixed exactly.
* C133: with `double`, `intersect` of the line through `(0, 0)` and `(1, 1)` with the strictly convex triangle `(12, 12)`, `(24, 24)`,
  `(1/2, 1/2 + 2^-53)` does not end: both searches for an extreme vertex give the same one (`convex_rounded_loops`).
* C135: with 64 bit coordinates `nearest` compares distances rounded to `double`; the points (0, 1), (2^27, 0), (2^28, 0) make it return the first two although the last two are closer (`nearest_int_fails`). Nothing overflows there.
* C136: for collinear points `within` of the hull is `outside` for one of any two different points, and `max_distance` of the hull is 0 (`within_hull_fails`), since the hull is a single point (C57).
* C137: an undirected adjacency list without an edge container keeps two copies of a bundle and lets one be assigned
  (`undirected_write_fails`): `Ref` is meant to be a constant reference there, but `add_const_if_t<true, T&>` (type_traits.hpp:15-19) is `T&`.
  A vertex in a set is compared by its bundle, which `graph[v] = x` changes in place through the `const_cast` of `id_at`
  (container_id.hpp:164-167), so two vertices can get equal values (`writeVertex_fails`). Of constant graphs `operator[]` for edges and for
  `edge_property` does not compile (composite_map.hpp:70-73, adjacency_list.hpp:147-154); it is not modelled.
* C138: `remove_vertex` with an edge container leaves the edges in the edge container and in the out-edges of the other ends
  (`removeVertexC_dangling_fails`, `removeVertexC_shift_fails`).
* C139: with unsigned coordinates `make_segment` from 3 to 1 has `end()` 1, but its points are those from 3 upwards (`mkSegment_unsigned_fails`);
  converting a line to narrower coordinates silently changes it (`convert_narrow_fails`).  `swap(line&, line&)` does not compile (line 142
  exchanges a kind with a line), and `any_kind` is written as an `int` but read as an enumerator (lines 85-91), so it cannot be read back from
  what was written.
* C141: `find_edge` of an absent edge is undefined where the out-edges keep the target, as in C41 (`mixedW_find_none`).
* C143: lines, rays and segments are written with a separator behind their last coordinate and cannot be read by `spaced` without it (`line_text_fails`, `line_plain_fails`); an `any_line` has two separators before its kind (`anyLine_text_fails`) and cannot be read at all (`read` of the enumeration `line_kind` does not compile). `hash_value` of an `any_line` does not compile either (its kind has no hash).
* C144: a loop from end() to begin() of a filtered range that calls begin() in its condition and makes the elements fail the predicate runs over the beginning.
* C145: `copy` of a filtered range to the position after its first element, in the same vector, runs over the end.
* C146: a unit of several spans that ends on a boundary of the buffer is duplicated in spite of `unit_flush` (`unit_duplicates`). For classes with `INTROSPECT` (points, lines) the `nested_scope_guard` of `detail::write_pre_final` (read_write.hpp:20-27) is skipped under `unit_flush`, because `write_pre_final(batch)` is the better match; this is read off the code, not modelled.
* C147: `io::buffered` ignores the results of the writes of its base, so a failure behind the buffer is never reported (`buffered_hides`).
* C148: text is lost in the middle, with success reported, if the device behind a buffer fails and recovers (`over_success`, `over_gap`).
* C149: `while (read(dev, s))` with a `std::string` and whitespace skipped never ends: at the end of the input an empty string is read successfully (`read_string_end`).
* C156: `convex_hull` of points on a line is a single point (C57), so hulls of parts that lie on lines lose points (`convexHull_append_fails`).
* C159: strings are written without quotes or lengths, so a pair of strings with separators in them has the text of another pair (`text_words_fail`).
* C161: strings in maps are written without quotes, so a map of strings with colons in them has the text of another map (`text_map_words_fail`).
