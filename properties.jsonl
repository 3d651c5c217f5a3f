{"id": "C01", "title": "binary_pow is exponentiation", "statement": "binary_pow(x, n) returns the product of exactly n copies of x (and the multiplicative identity for n = 0) for every element type whose multiplication is associative with identity T{1}, whatever that type is (integers that wrap, modular rings, matrices, strings under concatenation).", "quantifier": "every monoid, every element x, every exponent n >= 0 (no bound)", "why_tests_cant": "tests try four (base, exponent) pairs of int; the claim is about every exponent and every associative multiplication, including non-commutative ones", "anchors": ["include/actl/numeric/algorithm/binary_pow.hpp: binary_pow"]}
{"id": "C02", "title": "Modular addition, subtraction and negation are exact and never overflow", "statement": "For residues x, y < m stored in a w-bit unsigned word, +, - and unary - of ring_element return the unique residue in [0, m) congruent to the mathematical result, even when m is close to 2^w so that x + y does not fit the word; for the full-width ring (m = 2^32 stored as 0) they are wrap-around arithmetic.", "quantifier": "every word width w, every modulus 0 < m <= 2^w, all residues x, y < m", "why_tests_cant": "the overflow corner is only reached for moduli near 2^w; the domain is of size 2^(3w)", "anchors": ["include/actl/numeric/modular/ring.hpp: mod_add, mod_sub, ring_element::operator+, operator-, operator-()"]}
{"id": "C03", "title": "Modular multiplication is exact on both code paths", "statement": "ring_element multiplication returns the residue of the mathematical product: through the 64-bit intermediate for narrow words, through repeated doubling for 64-bit words, and by wrap-around when the static modulus is 2^32; no intermediate value overflows.", "quantifier": "every modulus representable in the word, all residues x, y < m", "why_tests_cant": "the doubling loop's intermediate values depend on all 64 bits of the multiplier; sampling cannot cover 2^192 triples", "anchors": ["include/actl/numeric/modular/ring.hpp: mod_mul, mod_mul_binary"]}
{"id": "C04", "title": "Modular division is sound and complete", "statement": "x / y in a quotient ring either returns r in [0, m) with y * r congruent to x modulo m, or throws; it throws exactly when no such r exists (that is when gcd(y, m) does not divide x). The division loop always terminates.", "quantifier": "every modulus m >= 1, every x, y < m, prime or composite moduli, y = 0 included", "why_tests_cant": "needs gcd reasoning over all pairs; termination and the 'throws iff unsolvable' equivalence are universally quantified", "anchors": ["include/actl/numeric/modular/ring.hpp: mod_div, ring_element::operator/"]}
{"id": "C05", "title": "splitmix64 never collides", "statement": "splitmix64::next is a bijection on 64-bit words: two different seeds/states never produce the same output, so a fixed-seed randomized hash of two different 64-bit integers never collides.", "quantifier": "all pairs of 64-bit inputs; every hash seed", "why_tests_cant": "2^128 pairs", "anchors": ["include/actl/numeric/random/splitmix64.hpp: splitmix64::next", "include/actl/numeric/hash.hpp: randomized_hash::compute, hash_value"]}
{"id": "C06", "title": "xoroshiro128cplus state transition is a bijection and never degenerates", "statement": "The generator's state transition is injective on 128-bit states, so distinct states stay distinct after any number of calls, and a generator whose state is not all zero (the default state is not) never reaches the all-zero state, from which it would output zeros forever. Each call returns, modulo 2^64, the sum of the two words of the state, plus one if the sum of the two words of the next state exceeds 64 bits.", "quantifier": "every 128-bit state, every number of calls", "why_tests_cant": "2^128 states and unbounded call sequences", "anchors": ["include/actl/numeric/random/xoroshiro128cplus.hpp: xoroshiro128cplus::operator()"]}
{"id": "C07", "title": "Integer constant literals denote the number they spell", "statement": "A literal such as 0x1'F_c, 0b101_c, 017_c or 42_c either fails to compile or has exactly the value of its digits in the base selected by its prefix, digit separators ignored; it fails to compile exactly when a digit is not below the base or the value exceeds the maximum of the target type.", "quantifier": "every digit string, separators anywhere, every prefix, every target width", "why_tests_cant": "infinitely many literals; the overflow check must be exact at every step of the fold", "anchors": ["include/actl/numeric/constant_literals.hpp: digit_to_value, filter_digits, to_number, str_to_constant::fold"]}
{"id": "C08", "title": "Bit queries and updates touch exactly the requested bits", "statement": "has_bit, has_bits, clear_bit, clear_bits and set_bits are exact bit by bit: clearing removes only the given bits, set_bits replaces exactly the masked bits, and the text-format flag operations getf/setf/unsetf/setg change only the flags of the named flag or group.", "quantifier": "every word, every mask, every bit index within the width", "why_tests_cant": "exponentially many words and masks", "anchors": ["include/actl/numeric/bit/operation.hpp: bit, has_bit, has_bits, clear_bits, clear_bit, set_bits", "include/actl/io/format/text/text.hpp: setf, unsetf, setg"]}
{"id": "C09", "title": "Tolerant comparison is a consistent trichotomy", "statement": "With an absolute-error policy, for any two values exactly one of 'less', 'equal', 'greater' holds; equality is reflexive and symmetric, less is irreflexive and transitive, compare3way agrees in sign with them and the sign is antisymmetric under swapping arguments.", "quantifier": "every epsilon >= 0 and every pair/triple of rational values", "why_tests_cant": "order laws quantify over all pairs and triples of values and all tolerances", "anchors": ["include/actl/numeric/comparison: absolute_error policy, compare3way.hpp, is_less, is_equal", "include/actl/numeric/comparison/min_max.hpp: min, max"]}
{"id": "C10", "title": "Integer output denotes the integer", "statement": "Writing an integer in text format produces an optional sign, an optional base prefix (0 for octal, 0x/0X for hexadecimal under showbase) and a non-empty digit string without superfluous leading zeros whose value in the chosen base is the absolute value of the integer; '-' appears exactly for negative numbers (minimum of the type included), '+' exactly under showpos for signed non-negative ones; digit letters follow the uppercase flag.", "quantifier": "every integer of every signed or unsigned width, every base 2..36 (0 meaning 10), every flag combination", "why_tests_cant": "2^64 values times 35 bases times flag combinations", "anchors": ["include/actl/io/format/text/arithmetic/integer_write.hpp: encode", "include/actl/io/format/text/arithmetic/detail/uitoa.hpp: uitoa"]}
{"id": "C11", "title": "Integer output never overruns its stack buffer", "statement": "The fixed buffer in which an integer is formatted (one char more than the binary digit count of the widest value) is large enough for every value, base, sign and base prefix: no write happens before its start.", "quantifier": "every integer of every width, every base 2..36, every flag combination", "why_tests_cant": "an overrun would be silent stack corruption on one specific (value, base, flags) combination", "anchors": ["include/actl/io/format/text/arithmetic/integer_write.hpp: int_string, encode", "include/actl/io/format/text/arithmetic/detail/digit_count.hpp: digit_count"]}
{"id": "C12", "title": "Integer text round-trip", "statement": "Reading back, with the same base setting, the text written for an integer yields the same integer: for every base 2..36 and every combination of showbase, showpos and uppercase the reader accepts.", "quantifier": "every signed/unsigned width, every value, every base, every flag combination, any way the text is split into chunks", "why_tests_cant": "2^64 values times bases times flags times chunkings", "anchors": ["include/actl/io/format/text/arithmetic/integer_write.hpp: encode", "include/actl/io/format/text/parser/integral.hpp: integral_parser"]}
{"id": "C13", "title": "Integer parsing accepts exactly the representable numerals", "statement": "The integer parser consumes the longest prefix that is an optional sign, optional base prefix and digits, and reports success with value v exactly when that prefix has at least one digit and denotes v, and v fits the target type; out-of-range numerals are reported as failure, never as a wrapped value.", "quantifier": "every input string, every base setting (0 = detect), every signed/unsigned width", "why_tests_cant": "unbounded strings; overflow is decided digit by digit and must be exact at the limits of every width and base", "anchors": ["include/actl/io/format/text/parser/integral.hpp: integral_parser", "include/actl/io/format/text/parser/uint_simple.hpp: uint_simple_parser", "include/actl/io/format/text/parser/base.hpp: base_parser", "include/actl/io/format/text/parser/sign.hpp: sign_parser"]}
{"id": "C14", "title": "Incremental parsing is independent of chunk boundaries", "statement": "Feeding an incremental parser (boolean, integral, constant data) the input in any sequence of non-empty chunks gives the same total consumption, the same success verdict and the same value as feeding it all at once.", "quantifier": "every input, every way of cutting it into non-empty chunks", "why_tests_cant": "2^(n-1) chunkings of every string of length n", "anchors": ["include/actl/io/core/parser_executor.hpp: parser_executor", "include/actl/io/core/const_data_parser.hpp: const_data_parser", "include/actl/io/format/text/parser/*.hpp"]}
{"id": "C15", "title": "Boolean text round-trip and exact language", "statement": "Reading a bool accepts exactly the texts 'true'/'false' (boolalpha) or '1'/'0' as prefix of the input, returns the corresponding value, and reading what was written returns the written value.", "quantifier": "every input string, both boolalpha settings", "why_tests_cant": "unbounded input strings", "anchors": ["include/actl/io/format/text/arithmetic/boolean.hpp: encode", "include/actl/io/format/text/parser/boolean.hpp: boolean_parser"]}
{"id": "C16", "title": "Constant data is matched exactly", "statement": "Reading a string constant from a device succeeds exactly when the device's remaining data starts with that constant, and consumes precisely the matched prefix, however the data is chunked.", "quantifier": "every constant, every input, every chunking", "why_tests_cant": "unbounded strings and chunkings", "anchors": ["include/actl/io/core/const_data_parser.hpp: const_data_parser"]}
{"id": "C17", "title": "Escaped output is unambiguous", "statement": "The escaped string format is injective: two different strings never escape to the same text, the output contains no raw control character, quote or backslash other than as part of an escape sequence, and a standard un-escaper recovers the original.", "quantifier": "every byte string", "why_tests_cant": "unbounded strings; ambiguity needs a pair of strings to show", "anchors": ["include/actl/io/format/text/decorator/escaped.hpp: escaped, write_final"]}
{"id": "C18", "title": "Adjusted output has the requested width and preserves content", "statement": "Writing with width adjustment emits the content unchanged, padded with the fill character to exactly max(width, length) characters, on the side(s) requested; center adjustments differ by at most one between left and right.", "quantifier": "every content, width, fill character and adjustment kind", "why_tests_cant": "unbounded widths and contents", "anchors": ["include/actl/io/format/text/decorator/adjusted.hpp: adjusted, adjustment"]}
{"id": "C19", "title": "Memory device stays within its span", "statement": "Any sequence of reads, writes, gets and moves on an in-memory device transfers exactly the bytes between the current position and the end of the span, reports the transferred count, and never touches memory outside the span.", "quantifier": "every buffer, every sequence of operations with any sizes", "why_tests_cant": "unbounded histories; the failing history is a specific get-past-end followed by read", "anchors": ["include/actl/io/device/memory.hpp: memory"]}
{"id": "C20", "title": "String device appends and reads back", "statement": "Everything written to a string device is appended in order; reading from a string device returns the string's characters in order, short at the end, and never reads outside of it.", "quantifier": "every string, every sequence of operations", "why_tests_cant": "unbounded histories", "anchors": ["include/actl/io/device/string.hpp: string"]}
{"id": "C21", "title": "Buffered writing emits the written characters once and in order", "statement": "For any sequence of writes followed by a flush, the underlying device receives exactly the concatenation of the written data.", "quantifier": "every buffer size >= 1, every sequence of write sizes, interleaved flushes", "why_tests_cant": "the failure depends on a write ending exactly at a buffer boundary; histories are unbounded", "anchors": ["include/actl/io/device/wrapper/buffered.hpp: buffered_writer"]}
{"id": "C22", "title": "Buffered reading returns the device's characters in order", "statement": "For any sequence of read, get, peek and move calls on a buffered reader, the characters returned are those of the underlying device, in order, none lost or duplicated, until it is exhausted.", "quantifier": "every buffer size, every underlying data, every sequence of read sizes", "why_tests_cant": "refill points depend on the history; histories are unbounded", "anchors": ["include/actl/io/device/wrapper/buffered.hpp: buffered_reader"]}
{"id": "C23", "title": "Reading till a terminator stops at the first terminator", "statement": "Reading into a span or a string till a terminator stores exactly the characters before the first terminator (or up to capacity / end of data), for a string with no length limit and regardless of its previous capacity.", "quantifier": "every input, every terminator predicate, every initial capacity", "why_tests_cant": "the doubling growth is only exercised by long strings; lengths unbounded", "anchors": ["include/actl/io/utility/till.hpp: till, read_till", "include/actl/io/format/text/parser/string.hpp: read_till"]}
{"id": "C24", "title": "Binary format and range serialization round-trip", "statement": "Reading back what was written in binary format restores the same values: integers and fixed tuples byte for byte, resizable ranges with their length, nested to any depth; a truncated input makes the read fail instead of succeeding with wrong data.", "quantifier": "every value of every nesting depth, every truncation point", "why_tests_cant": "unbounded sizes and nesting; every truncation point", "anchors": ["include/actl/io/format/binary/binary.hpp", "include/actl/io/argument/range.hpp", "include/actl/io/argument/size.hpp", "include/actl/io/argument/tuple.hpp", "include/actl/io/io.hpp: read, write"]}
{"id": "C25", "title": "Split yields the maximal delimiter-free words", "statement": "Splitting a string returns exactly the maximal non-empty runs of non-delimiter characters, in order; keeping empty parts it returns every field between delimiters (and nothing for the empty string).", "quantifier": "every string, every delimiter predicate", "why_tests_cant": "unbounded strings", "anchors": ["include/actl/string/split.hpp: split"]}
{"id": "C26", "title": "Trim removes exactly the matching ends", "statement": "Trimming removes the longest prefix/suffix of matching characters and nothing else: the result is a substring, has no matching first/last character, and trimming is idempotent.", "quantifier": "every string, every predicate", "why_tests_cant": "unbounded strings", "anchors": ["include/actl/string/trim.hpp: trim"]}
{"id": "C27", "title": "Character classes agree with the C locale on every character", "statement": "is_digit, is_lower, is_upper, is_alpha, is_alphanumeric and is_space agree with the C-locale <cctype> classes on every character value, including those outside ASCII (negative char).", "quantifier": "all 256 char values", "why_tests_cant": "the unit test stops before the last char and never visits negative values", "anchors": ["include/actl/string/char_classes.hpp"]}
{"id": "C28", "title": "Queue adaptors are FIFO queues", "statement": "A queue built from two stacks and a queue built on a vector behave like a FIFO queue under every sequence of push, pop, front/top, size and empty that does not pop/peek an empty queue.", "quantifier": "every operation history", "why_tests_cant": "the stack transfer happens at history-dependent points; histories unbounded", "anchors": ["include/actl/container/adaptor/queue_using_stacks.hpp: queue_using_stacks", "include/actl/container/adaptor/vector_as_queue.hpp: vector_as_queue"]}
{"id": "C29", "title": "array_as_vector is a bounded vector", "statement": "A fixed-array vector holds exactly the pushed-and-not-popped elements in order, under every history that never exceeds its capacity; writing beyond capacity is out of bounds.", "quantifier": "every capacity, every operation history", "why_tests_cant": "unbounded histories", "anchors": ["include/actl/container/adaptor/array_as_vector.hpp: array_as_vector"]}
{"id": "C30", "title": "Tensor indexing is a bijection", "statement": "For a tensor of any rank and dimensions, element access with in-range indices addresses exactly one in-range storage cell, different index tuples address different cells, every cell is addressed, and chained subscripts t[i][j]... address the same cell as t(i, j, ...).", "quantifier": "every rank, all dimensions, all index tuples", "why_tests_cant": "unbounded rank and dimensions", "anchors": ["include/actl/container/tensor.hpp: get_index, operator(), operator[], compute_product"]}
{"id": "C31", "title": "Tensor built from nested lists holds the listed values", "statement": "A tensor constructed from nested initializer lists has the maximal extents per level, holds at every listed position the listed value and T{} elsewhere.", "quantifier": "every rank and every (ragged) nested list", "why_tests_cant": "unbounded shapes; wrong strides only show for rank >= 3 with unequal leading dimensions", "anchors": ["include/actl/container/tensor.hpp: tensor_data(size, il, dims), initialize, compute_dimensions"]}
{"id": "C32", "title": "Semi-static arrays index their dynamic slots correctly", "statement": "An array with some compile-time elements returns at index i the compile-time value if there is one, and otherwise the run-time value supplied for that position; distinct dynamic positions use distinct storage slots and all slots are used.", "quantifier": "every pattern of static/dynamic positions, every index", "why_tests_cant": "2^n patterns for every length", "anchors": ["include/actl/container/array/semi_static_array.hpp: operator[], dynamic_index_f, assign_at"]}
{"id": "C33", "title": "Accounting map numbers keys consistently", "statement": "An accounting map assigns to the keys it has seen the consecutive numbers 0, 1, 2, ... in order of first request: equal keys always get the same number, distinct keys distinct numbers, and the inverse lookup returns the key.", "quantifier": "every request history", "why_tests_cant": "unbounded histories", "anchors": ["include/actl/map/accounting_map.hpp: accounting_map"]}
{"id": "C34", "title": "Composite, shifted and inverted maps obey the get/put laws", "statement": "For map adaptors, get after put returns the stored value, puts to different keys don't interfere, composition looks up through both maps, and where an inverse is offered it undoes get.", "quantifier": "every map content, every key, every put history", "why_tests_cant": "quantifies over all maps and all histories", "anchors": ["include/actl/map/composite_map.hpp", "include/actl/map/shift_map.hpp", "include/actl/map/identity_map.hpp", "include/actl/map/pair_associative_container.hpp"]}
{"id": "C35", "title": "Integer ranges enumerate exactly the requested numbers", "statement": "irange(n), irange(a, b), irange(a, b, step), drange iterate exactly the arithmetic progression they document, in order, with the right size, without skipping or overshooting the end.", "quantifier": "all bounds and all steps (positive and negative)", "why_tests_cant": "unbounded bounds and steps; off-by-one at step multiples", "anchors": ["include/actl/range/irange.hpp: irange, drange", "include/actl/range/iterator/integer_iterator.hpp"]}
{"id": "C36", "title": "Cyclic iterators walk modulo the range size", "statement": "A cyclic iterator after any sequence of ++, --, += and -= designates the element whose index is the start index plus the net displacement modulo the range size, staying always inside the range.", "quantifier": "every non-empty range, every sequence of moves (within the documented +-size per step)", "why_tests_cant": "unbounded histories", "anchors": ["include/actl/range/iterator/cyclic_iterator.hpp: cyclic_iterator"]}
{"id": "C37", "title": "Filtered range is filter", "statement": "Iterating a filtered range, forwards or backwards, visits exactly the elements satisfying the predicate in order.", "quantifier": "every range and every predicate", "why_tests_cant": "unbounded ranges, arbitrary predicates", "anchors": ["include/actl/range/filtered_range.hpp"]}
{"id": "C38", "title": "Lexicographical comparison is a total order consistent with equality", "statement": "Three-way comparison of ranges is 0 exactly for equal ranges, antisymmetric and transitive and is negative exactly when the first range is a proper prefix or has the smaller element at the first difference; same for tuples.", "quantifier": "all pairs/triples of ranges of any length over any totally ordered element type", "why_tests_cant": "order laws over all triples of unbounded sequences", "anchors": ["include/actl/range/operation/lexicographical_compare_range.hpp", "include/actl/sequence/tuple/lexicographical_compare_tuple.hpp"]}
{"id": "C39", "title": "Edge list stores each edge as documented", "statement": "Adding edges to an edge list reports success exactly when the container allows it (always for sequences, only if absent for unique containers, direction ignored for undirected graphs), edge_count equals the number of successes, iteration yields exactly the stored edges, and find_edge finds an edge exactly when present.", "quantifier": "every sequence of additions and lookups, directed/undirected, sequence/unique container", "why_tests_cant": "unbounded histories", "anchors": ["include/actl/graph/edge_list.hpp: try_add_edge, find_edge, edges, edge_count", "include/actl/graph/detail/edge_list_traits.hpp: edge_vertices"]}
{"id": "C40", "title": "The far end of a stored edge is recovered correctly", "statement": "Edges stored compactly (xor of endpoints, or both endpoints) return the opposite endpoint for either endpoint given.", "quantifier": "all vertex numbers, all edges", "why_tests_cant": "2^64 pairs of endpoints", "anchors": ["include/actl/graph/detail/edge_list_traits.hpp: edge_vertices::other", "include/actl/graph/edge_list.hpp: get_target"]}
{"id": "C41", "title": "Adjacency list keeps both directions consistent", "statement": "After any sequence of edge insertions, out-edges of an undirected graph are symmetric, in-edges of a bidirectional graph are exactly the reversed out-edges, the vertex count covers every endpoint, edge_count equals the number of accepted insertions and equals the number of edges iterated by edges(), each exactly once.", "quantifier": "every insertion history, any vertex numbers, self-loops and parallel edges included", "why_tests_cant": "unbounded histories", "anchors": ["include/actl/graph/adjacency_list.hpp: try_add_edge, try_add_edge_impl, edges, out_edges, in_edges", "include/actl/graph/detail/adj_list_iterators.hpp: adj_list_edge_iter"]}
{"id": "C42", "title": "Iterative depth-first search equals its recursive definition", "statement": "The explicit-stack depth-first search emits exactly the same sequence of events as the recursive reference implementation in the same file (with search start/finish added), on every graph, and terminates.", "quantifier": "every finite graph, every source, every discovered-set at the start, every terminator predicate", "why_tests_cant": "unbounded graphs; equality of two event streams", "anchors": ["include/actl/graph/traversal/depth_first_search.hpp: recurse, visit, operator()"]}
{"id": "C43", "title": "Depth-first search visits exactly the reachable vertices, once", "statement": "Depth-first search from a source discovers every vertex reachable from it exactly once and no other, examines each of their out-edges exactly once as tree or non-tree edge, and finishes each exactly once after discovering it; the full-graph version does so for every vertex.", "quantifier": "every finite graph (parallel edges, loops, disconnected), every source", "why_tests_cant": "unbounded graphs", "anchors": ["include/actl/graph/traversal/depth_first_search.hpp: visit, operator()", "include/actl/graph/traversal/discovered_flag.hpp"]}
{"id": "C44", "title": "DFS intervals nest", "statement": "Start/finish events of depth-first search are well-parenthesised: for two vertices the intervals are nested or disjoint, and v's interval lies inside u's iff v was reached from u through tree edges; in/out time stamps reflect it.", "quantifier": "every finite graph, every pair of vertices", "why_tests_cant": "unbounded graphs, all pairs", "anchors": ["include/actl/graph/traversal/depth_first_search.hpp", "include/actl/graph/traversal/time_stamper.hpp: in_out_time_stamper"]}
{"id": "C45", "title": "Topological sort output is a reverse topological order", "statement": "For an acyclic graph the output lists every vertex exactly once and every edge goes from a later-listed vertex to an earlier-listed one.", "quantifier": "every finite DAG", "why_tests_cant": "unbounded graphs", "anchors": ["include/actl/graph/traversal/order.hpp: topological_sort, postorder, preorder"]}
{"id": "C46", "title": "Breadth-first search computes shortest distances", "statement": "Breadth-first search with the distance recorder assigns to every vertex reachable from the source(s) the minimal number of edges of a path from them, and leaves the initial value -1 on all others; each reachable vertex is discovered once.", "quantifier": "every finite graph, every set of sources", "why_tests_cant": "unbounded graphs; minimality quantifies over all paths", "anchors": ["include/actl/graph/traversal/breadth_first_search.hpp: operator()", "include/actl/graph/traversal/distance_recorder.hpp"]}
{"id": "C47", "title": "Predecessor recorder describes a search tree", "statement": "After a search, following recorded predecessors from any discovered vertex walks real edges of the graph backwards and reaches a source after finitely many steps (in BFS, in exactly the recorded distance); sources are their own predecessor and undiscovered vertices have the null vertex.", "quantifier": "every finite graph, every source, every discovered vertex", "why_tests_cant": "unbounded graphs and path lengths", "anchors": ["include/actl/graph/traversal/predecessor_recorder.hpp", "include/actl/graph/traversal/breadth_first_search.hpp", "include/actl/graph/traversal/depth_first_search.hpp"]}
{"id": "C48", "title": "Connected components are numbered correctly", "statement": "For an undirected graph two vertices get the same component number iff they are connected by a path, and the numbers used are exactly 0 .. count-1.", "quantifier": "every finite undirected graph, all pairs of vertices", "why_tests_cant": "unbounded graphs, all pairs", "anchors": ["include/actl/graph/connectivity/connected_components.hpp: connected_component_recorder"]}
{"id": "C49", "title": "Strongly connected components", "statement": "find_strong_components gives two vertices of a directed graph the same number iff each is reachable from the other.", "quantifier": "every finite directed graph, all pairs of vertices", "why_tests_cant": "unbounded graphs; a wrong answer needs a specific edge order", "anchors": ["include/actl/graph/connectivity/tarjan_strong_components.hpp: strong_component_finder, find_strong_components", "include/actl/graph/connectivity/detail/component_stack.hpp"]}
{"id": "C50", "title": "Bridges and two-edge-connected components", "statement": "find_bridges outputs exactly the edges whose removal disconnects their endpoints (parallel edges are never bridges, self-loops neither), and the component map equates two vertices iff no bridge separates them.", "quantifier": "every finite undirected graph, every edge", "why_tests_cant": "unbounded graphs; removal quantifies over all paths", "anchors": ["include/actl/graph/connectivity/bridges.hpp: bridge_finder, find_bridges", "include/actl/graph/connectivity/detail/component_stack.hpp"]}
{"id": "C51", "title": "Articulation points", "statement": "find_articulation_points marks exactly the vertices whose removal disconnects two of their neighbours.", "quantifier": "every finite undirected graph, every vertex", "why_tests_cant": "unbounded graphs; removal quantifies over all paths", "anchors": ["include/actl/graph/connectivity/articulation_points.hpp: articulation_point_finder"]}
{"id": "C52", "title": "Signed area and orientation obey the determinant laws", "statement": "The signed area of two vectors is bilinear and antisymmetric, orientation of three points flips under swapping two of them, is invariant under cyclic rotation and translation, and polygon area equals the shoelace sum, is additive under cutting by a diagonal and invariant under rotating the vertex list.", "quantifier": "all points over any commutative ring / ordered field, all polygons", "why_tests_cant": "algebraic identities over all coordinates and unbounded polygons", "anchors": ["include/actl/geometry/algorithm/area", "include/actl/geometry/algorithm/orientation"]}
{"id": "C53", "title": "Point-in-triangle test is correct", "statement": "within(point, triangle) for a non-degenerate triangle returns inside/border/outside exactly according to the convex combination representing the point.", "quantifier": "all points and all non-degenerate triangles with exact arithmetic, either vertex order", "why_tests_cant": "uncountably many inputs; degenerate positions on lines through edges", "anchors": ["include/actl/geometry/algorithm/within/triangle.hpp: within"]}
{"id": "C54", "title": "Point-on-line/ray/segment test is correct", "statement": "within(point, line) reports border exactly when the point lies on the line, ray or segment (open or closed endpoints respected), including degenerate ones.", "quantifier": "all points, all lines of every kind with exact arithmetic", "why_tests_cant": "quantifies over all coordinates and endpoint kinds", "anchors": ["include/actl/geometry/algorithm/within/line.hpp: within", "include/actl/geometry/detail/between_endpoints.hpp: between_endpoints"]}
{"id": "C55", "title": "Line intersection returns the intersection", "statement": "Intersecting two 2D lines/rays/segments returns a point exactly when they properly intersect and that point lies on both; parallel ones are recognised.", "quantifier": "all pairs of lines of every kind with exact arithmetic", "why_tests_cant": "quantifies over all coordinates", "anchors": ["include/actl/geometry/algorithm/intersect: line_line_2d", "include/actl/geometry/detail/line_test.hpp"]}
{"id": "C56", "title": "Projection, reflection and rotation are isometries/idempotents", "statement": "Projecting a point on a line or plane gives the point of it with orthogonal residue and is idempotent; reflecting twice is the identity and preserves distances; rotating preserves the norm and the zero angle is the identity.", "quantifier": "all points, lines, planes, angles with exact arithmetic", "why_tests_cant": "identities over all coordinates", "anchors": ["include/actl/geometry/algorithm/project", "include/actl/geometry/algorithm/reflect/point.hpp: reflect", "include/actl/geometry/algorithm/rotate/point2d.hpp: rotate"]}
{"id": "C57", "title": "Convex hull is the convex hull", "statement": "The convex hull of a point set is a subset of the input, all input points lie in it, and its vertices make strict turns in one direction.", "quantifier": "every finite point set with exact arithmetic", "why_tests_cant": "unbounded point sets, degenerate collinear configurations", "anchors": ["include/actl/geometry/algorithm/convex_hull: andrew"]}
{"id": "C58", "title": "Default hash containers respect equality", "statement": "Hashing is a function of the value: equal sequences hash equally, and combining hashes element by element is injective in the last element.", "quantifier": "every sequence of hashable values, every process seed", "why_tests_cant": "unbounded sequences and all seeds", "anchors": ["include/actl/numeric/hash.hpp: hash_value, hash_combine"]}
{"id": "C59", "title": "Spacing and bracing decorators produce separated, balanced output", "statement": "Writing a list of values through the spaced decorator emits the separator exactly between consecutive items (never leading or trailing), nested sequences included, and the braced decorator wraps each composite in matching brackets.", "quantifier": "every list of items, every nesting", "why_tests_cant": "unbounded lists and nesting", "anchors": ["include/actl/io/format/text/decorator/spaced.hpp", "include/actl/io/format/text/decorator/braced.hpp"]}
{"id": "C60", "title": "Container ids stay valid under insertion", "statement": "For random access containers ids are positions: emplacing returns the id of the new element and leaves all earlier ids designating the same elements; find returns the id of the first equal element or the end id.", "quantifier": "every container content, every sequence of emplace/find", "why_tests_cant": "unbounded histories", "anchors": ["include/actl/container/container_id.hpp: id_emplace, id_at, id_find, id_end, id_null"]}
{"id": "C61", "title": "Seeding a generator never degenerates it", "statement": "Seeding the random generator with any string leaves it in a non-zero state, and the resulting generator is a function of the sum of the characters of the string (so permuted strings give the same stream).", "quantifier": "every seed string", "why_tests_cant": "The set of strings is infinite and the degenerate state is one in 2^128.", "anchors": ["include/actl/numeric/random/rng_decorator.hpp:48-58", "include/actl/numeric/random/xoroshiro128cplus.hpp:18-28"]}
{"id": "C62", "title": "Winding number and point in polygon", "statement": "winding_number of a point and a polygon returns INT_MAX exactly if the point lies on an edge or vertex, and otherwise the number of turns the polygon makes around the point: the total signed angle under which the edges are seen divided by the full angle. It does not depend on the starting vertex, changes sign when the vertices are reversed, adds up when the polygon is cut by a diagonal, and is 0 for a point separated by a line from all vertices. within(point, simple polygon) is border exactly on the edges, and for a strictly convex polygon inside, border and outside are exactly the points strictly left of all edges, on an edge, and strictly right of some edge; the number of a point inside is 1.", "quantifier": "every polygon (any number of vertices, self-intersecting too) of fewer than 2^31-1 vertices and every point, exact arithmetic", "why_tests_cant": "Failures come from the degenerate positions (a vertex at the height of the point, horizontal edges, collinear points), which random tests do not hit, and the number of vertices is unbounded.", "anchors": ["include/actl/geometry/algorithm/polygon/winding_number.hpp:19-57", "include/actl/geometry/algorithm/within/simple_polygon.hpp:15-27"]}
{"id": "C63", "title": "Point in a monotone and in a convex polygon by bisection", "statement": "Converting a strictly convex polygon to a convex_monotone_polygon gives the same cyclic sequence starting at the lexicographically least vertex, with right() the position of the greatest one, the vertices ascending up to it and descending after. within(point, convex_monotone_polygon) and within(point, monotone_polygon) then classify every point exactly: inside iff strictly left of all edges, border iff on an edge, outside iff strictly right of some edge. For any monotone polygon whose lower chain is not above its upper chain at the position of the point, within agrees with the winding number. In particular, for every simple monotone polygon that turns left at its leftmost vertex (convex or not), within(point, monotone_polygon) agrees with the winding number for every point. No access is out of range.", "quantifier": "every strictly convex polygon, every monotone polygon, every point, exact arithmetic", "why_tests_cant": "The special positions (points on the diagonal, on vertical edges, at vertices, chains without inner vertices) are not hit by random tests, and the size of the polygon is unbounded.", "anchors": ["include/actl/geometry/polygon.hpp:122-142", "include/actl/geometry/algorithm/within/convex_monotone_polygon.hpp:16-56", "include/actl/geometry/algorithm/within/monotone_polygon.hpp:16-42", "include/actl/geometry/detail/to_inclusion.hpp:14-18"]}
{"id": "C64", "title": "Distances, nearest points and crossing tests", "statement": "With exact arithmetic and in every dimension: nearest(point, line/ray/segment/plane) returns the unique nearest point of the object (ends included); distance(point, line/ray/segment/plane) is the distance to that point, and for open ends the infimum over the object; distance(point, point) is a metric; within(point, sphere) compares the distance with the radius; crosses(sphere, sphere), crosses(plane, plane) and crosses(plane, sphere) are true exactly when the two objects have a common point.", "quantifier": "all dimensions (at least 2 for spheres), all points, lines of all six kinds, planes, spheres of radius >= 0, every ordered field with square roots", "why_tests_cant": "The answer must be minimal over infinitely many points of the object, for every dimension and endpoint kind.", "anchors": ["include/actl/geometry/algorithm/distance/point_line.hpp:14-25", "include/actl/geometry/algorithm/nearest/point_line.hpp:14-27", "include/actl/geometry/algorithm/distance/point_plane.hpp:15-21", "include/actl/geometry/algorithm/crosses/sphere_sphere.hpp:15-22", "include/actl/geometry/algorithm/crosses/plane_plane.hpp:15-28", "include/actl/geometry/algorithm/crosses/plane_sphere.hpp:16-24", "include/actl/geometry/algorithm/within/sphere.hpp:15-22"]}
{"id": "C65", "title": "Intersections with circles and spheres, tangents to a circle", "statement": "With exact arithmetic: intersect(circle, circle, out) and intersect(line, sphere, out) write exactly the common points (with the scalar policy: the parameters, in increasing order), each once, to consecutive positions and return the iterator after the last; tangents(point, circle, out) writes exactly the touching points (with the polar policy: the angles of the tangent lines) in the same manner.", "quantifier": "all circles with radius >= 0, all lines, rays and segments and spheres in every dimension, all points, every output iterator", "why_tests_cant": "Completeness (no common point is missed) quantifies over all points of the plane; the position of writes only shows with pointer-like iterators.", "anchors": ["include/actl/geometry/algorithm/intersect/circle_circle.hpp:16-53", "include/actl/geometry/algorithm/intersect/line_sphere.hpp:16-50", "include/actl/geometry/algorithm/intersect/intersect.hpp:23-36", "include/actl/geometry/detail/scalar_to_point_adaptor.hpp:15-48", "include/actl/geometry/algorithm/tangents/point_circle.hpp:17-64"]}
{"id": "C66", "title": "Sorting points by angle", "statement": "With exact arithmetic, sort_by_angle(points) permutes the points (or indices of points) so that the points at (0, 0) come first and the others follow in the order of their polar angle in [0, 2 pi); sort_by_angle(points, origin) does the same for the angles seen from the origin.", "quantifier": "all sequences of points, all index sequences, every origin, every std::partition and std::sort that meets the standard", "why_tests_cant": "The angle is transcendental and the order comes from signs of cross products, valid only inside a half turn; every triple must satisfy transitivity for std::sort to be defined.", "anchors": ["include/actl/geometry/algorithm/point/sort_by_angle.hpp:15-57"]}
{"id": "C67", "title": "Closest pair of points", "statement": "With exact arithmetic, nearest(points) on at least two points returns two of the points, at different positions, whose distance is the least over all such pairs, and leaves the points permuted; with fewer than two points the precondition fails.", "quantifier": "all finite sequences of points of the plane, with duplicates and common coordinates, every std::sort that meets the standard", "why_tests_cant": "The claim quantifies over all pairs of all point sets; the break of the inner loop and the strip only go wrong on particular configurations.", "anchors": ["include/actl/geometry/algorithm/nearest/multi_point.hpp:19-78"]}
{"id": "C68", "title": "Antipodal vertices and diameter of a convex polygon", "statement": "With exact arithmetic, antipodal_vertices(polygon, out) writes pairs of positions of different vertices, each pair at most once and at most 2n - 3 pairs, among them every pair of vertices through which there are parallel lines with the polygon in between; max_distance(polygon) is the greatest distance of two vertices.", "quantifier": "all strictly convex polygons given counter-clockwise, every direction of the parallel lines; also polygons with fewer than three vertices", "why_tests_cant": "Completeness quantifies over all directions; the loop ends and the reads past the end depend on the whole shape.", "anchors": ["include/actl/geometry/algorithm/polygon/antipodal_vertices.hpp:15-31", "include/actl/geometry/algorithm/polygon/max_distance.hpp:16-25"]}
{"id": "C69", "title": "Extreme vertices of a convex polygon and tangents from a point", "statement": "With exact arithmetic, extreme_vertex(polygon, direction) for a constant non-zero direction returns the vertex such that the line through it in this direction has the whole polygon on its left, and the vertex before it is not on this line; tangents(point, polygon, out) for a point outside writes exactly two vertices to consecutive positions: the line from the point through the first has the polygon on its left, the line through the second has it on its right.", "quantifier": "all strictly convex polygons given counter-clockwise with at least three vertices, all directions, all points outside, all output positions", "why_tests_cant": "The binary search over a cyclic sequence goes wrong only for particular positions of the extreme vertex relative to the start and for edges parallel to the direction; the claim is for every number of vertices and every shape.", "anchors": ["include/actl/geometry/algorithm/polygon/extreme_vertex.hpp:15-53", "include/actl/geometry/algorithm/tangents/point_convex_polygon.hpp:15-29"]}
{"id": "C70", "title": "Writing real numbers", "statement": "With a text format, the text written for a floating point number is its sign (a plus only if asked for) and a fixed point numeral in the base of the format with exactly the number of digits of the precision setting after the point, denoting a multiple of the unit of the last digit that differs from the number by at most half this unit plus the error of two floating point operations; not-a-number and infinity are written as nan and inf in the case asked for; no write happens outside of the buffer.", "quantifier": "all finite numbers, precisions, bases 2 to 36 and 0, flags; all floating point roundings with a bounded error", "why_tests_cant": "The buffer is exceeded only by the largest numbers with a sign and a point; the rounding up of the fraction happens only next to an integer.", "anchors": ["include/actl/io/format/text/arithmetic/real_write.hpp:22-101", "include/actl/io/format/text/arithmetic/detail/uitoa.hpp:13-41"]}
{"id": "C71", "title": "Input of real numbers", "statement": "Reading a floating point number with the default text parser in base b (2 to 36; 0 means 10) consumes exactly an optional sign, the digits that follow it and, after at least one digit, a point and the digits after it; the value stored is the number these characters denote (with exact arithmetic), however long the number is, and nothing is stored if there is no digit before the point. The division of the text into input buffers does not matter. What the output of real numbers writes is read back completely, with an error of at most half a unit of the last digit (plus the error of the floating point operations of the output).", "quantifier": "every base b = 0 or 2..36, every text, every division into non-empty buffers; for the round trip every number, format and precision for which the output works", "why_tests_cant": "Texts of unbounded length in unboundedly many divisions; blocks of digits longer than a machine word change the path through the parser.", "anchors": ["include/actl/io/format/text/parser/float_unchecked.hpp:17-97", "include/actl/io/format/text/parser/uint_unchecked.hpp:14-45", "include/actl/io/format/text/parser/digit.hpp:16-36", "include/actl/io/format/text/parser/sign.hpp:12-48", "include/actl/io/core/parser_executor.hpp:14-40"]}
{"id": "C72", "title": "Intersection of a line with a convex polygon", "statement": "intersect(line_scalar_policy, line, convex_polygon, output) on a strictly convex counter-clockwise polygon and a line, ray or segment with non-zero vector: if the whole line misses the polygon nothing is written; otherwise there are parameters t1 <= t2 such that the point of the line at t is in the polygon exactly if t1 <= t <= t2, and the call writes first t1, then t2, each only if it belongs to the ray or segment. A line that touches the polygon in one vertex writes that parameter twice.", "quantifier": "for every strictly convex polygon with at least 3 vertices, every line kind, every start and non-zero vector over every ordered field", "why_tests_cant": "the four extreme cases (vertex on the line, edge on the line, touching, chains wrapping around the end of the vertex list) multiply with polygon sizes and kinds; a test fixes a few polygons", "anchors": ["include/actl/geometry/algorithm/intersect/line_convex_polygon.hpp:18-61", "include/actl/geometry/algorithm/intersect/line_line_2d.hpp:27-65", "include/actl/range/iterator/cyclic_iterator.hpp:34-68"]}
{"id": "C73", "title": "Intersection of a line with a simple polygon", "statement": "intersect(line_scalar_policy, line, simple_polygon, output) on a simple counter-clockwise polygon and a line, ray or segment with non-zero vector: there is one list of parameters of the whole line, all on the border of the polygon, such that the call writes exactly those of the list that belong to the ray or segment; the number of parameters of the list less than t is odd exactly if the line just before t runs in the polygon, inside it or along an edge of it. So the parameters are those where the line enters and leaves the polygon. A point of the line off the border is inside for within(point, simple_polygon) exactly if an odd number of the parameters comes before it. If the polygon only touches the line in vertices nothing is written.", "quantifier": "for every simple polygon with at least 3 vertices given counter-clockwise (no condition but distinct neighbours if no vertex is on the line), every line kind, every start and non-zero vector over every ordered field, every t", "why_tests_cant": "vertices and edges on the line need seven different local rules whose errors cancel or show only in combination; a test fixes a few polygons", "anchors": ["include/actl/geometry/algorithm/intersect/line_simple_polygon.hpp:18-57", "include/actl/geometry/detail/between_endpoints.hpp:13-27", "include/actl/geometry/algorithm/project/point_line.hpp:14-22"]}
{"id": "C74", "title": "Arrays of types are indexed, sliced and concatenated correctly", "statement": "at_t<L, I> is the I-th type and is ill-formed exactly for I >= length; slice_t<L, F, E> is the types from F to E-1 and is ill-formed exactly unless F <= E <= length (although the indices are subtracted in size_t and wrap); prefix_t and suffix_t are the first and last types, ill-formed exactly for a length above that of the array; concat_t of any number of arrays is their concatenation.", "quantifier": "every array of types of length below 2^64, all indices", "why_tests_cant": "the recursion proceeds in steps of 8 and of 4 with special cases for the remainders; a test instantiates a few lengths only", "anchors": ["include/actl/sequence/type_array/at.hpp: at_t", "include/actl/sequence/type_array/slice.hpp: slice_t, prefix_t, suffix_t", "include/actl/sequence/type_array/concat.hpp: concat_t"]}
{"id": "C75", "title": "Random access iterators over integers behave like indices", "statement": "For an integer iterator over the progression first, first + step, ..., the operations +, -, +=, -=, ++, -- move by the given number of elements, the difference of two iterators is the difference of their indices, and their order is the order of the indices; front(), back() and operator[] of a range return its first, last and i-th element.", "quantifier": "every integer type of the value, the step and the offset, every first element, step of either sign, index and offset without overflow", "why_tests_cant": "the integral conversions depend on the combination of three types and of the signs; dangling references often still read the right value in a test", "anchors": ["include/actl/range/iterator/integer_iterator.hpp: integer_iterator", "include/actl/range/iterator/interface/random_access_iterator_interface.hpp: random_access_iterator_interface", "include/actl/range/interface/random_access_range_interface.hpp: operator[]", "include/actl/range/interface/basic_range_interface.hpp: front", "include/actl/range/interface/bidirectional_range_interface.hpp: back"]}
{"id": "C76", "title": "Linked list iterators visit the nodes in order", "statement": "Iterating from the first node of a linked list to the default constructed iterator visits the values of all its nodes in order; in a doubly linked list -- undoes ++ and going back by k from the i-th node gives the (i-k)-th, from the end as well.", "quantifier": "every heap, every linked list in it of any length", "why_tests_cant": "lists are unbounded, and the end of the list is a special case that a traversal forwards does not show", "anchors": ["include/actl/range/iterator/linked_list_iterator.hpp: singly_linked_list_iterator, doubly_linked_list_iterator"]}
{"id": "C77", "title": "A limited input range reads exactly the given number of elements", "statement": "Iterating over a limited input range visits the first limit elements of the input (all of them if there are fewer) and takes no more than that from the input. After limit increments the iterator cannot be incremented again.", "quantifier": "every input, every limit", "why_tests_cant": "the off-by-one between the elements visited and the elements taken from the input shows only when the input is used afterwards", "anchors": ["include/actl/range/iterator/limited_input_iterator.hpp: limited_input_iterator", "include/actl/range/limited_input_range.hpp: make_limited_input_range"]}
{"id": "C78", "title": "Indented text has one line per unit, indented by its depth", "statement": "Writing values through indented text puts every unit on a line of its own that starts with count fill characters for each level of nesting, in the order of the values; the very first line starts where the output starts; raw text continues its line; after any value the level of nesting is what it was.", "quantifier": "every tree of values of any depth and size, every fill, line end and count, any number of consecutive writes with one format object", "why_tests_cant": "trees are unbounded, and the flag and level kept in the format object make the text of a value depend on everything written before", "anchors": ["include/actl/io/format/text/decorator/indented.hpp: encode, manipulate", "include/actl/io/core/manipulator.hpp: nested_scope_guard"]}
{"id": "C79", "title": "Line buffered devices lose nothing and flush complete lines", "statement": "Reading a file through a line buffered reader piece by piece gives all of its characters in order and no piece goes beyond the end of a line; writing through a line buffered writer passes all characters on in order, and after each write everything through the last line end was flushed and nothing more.", "quantifier": "every file contents, every piece size, every sequence of writes", "why_tests_cant": "contents are unbounded; zero characters, one character spans and lines that straddle writes are rare in tests", "anchors": ["include/actl/io/device/wrapper/line_buffered.hpp: line_buffered_reader::read, line_buffered::write"]}
{"id": "C80", "title": "Function type traits take types apart and put them together without loss", "statement": "A function or member function type is determined by its category, return type, parameters, variadic arguments and noexcept, and assembling these gives the type back; changing one property (return type, noexcept, variadic arguments, a member qualifier) changes no other; converting between free and member functions adds or takes exactly the class parameter; qualifiers are copied as a whole; what can be called like a function has the traits of a free function.", "quantifier": "every function type with any number and kind of parameters, behind any pointers, references and qualifiers", "why_tests_cant": "the types are unbounded; each static_assert covers one type", "anchors": ["include/actl/functional/traits/function_traits.hpp: function_traits", "include/actl/functional/traits/assemble_function.hpp: assemble_function_t, as_free_function_t", "include/actl/functional/traits/member_traits.hpp: as_member_of_t, class_of_t", "include/actl/functional/traits/member_qualifiers.hpp", "include/actl/core/qualifiers/copy.hpp, inner.hpp"]}
{"id": "C81", "title": "Conversions between sequences keep all elements in order", "statement": "convert_to<T>(args...) gives a value of the target type with all the numbers of the arguments in order, nothing dropped, added or reordered; a vector converts to a tuple or array exactly if it has its size; no conversion leaves a part of the target uninitialized.", "quantifier": "every target and argument types nested from numbers, constants, tuples, arrays and vectors, and all values of these types", "why_tests_cant": "the types are nested without bound; every combination of source and target is its own instantiation", "anchors": ["include/actl/container/conversion/convert_to.hpp: convert_to, can_convert_to_v", "include/actl/container/conversion/between_ranges.hpp", "include/actl/container/conversion/from_range_to_tuple.hpp", "include/actl/container/conversion/from_tuple.hpp", "include/actl/container/conversion/to_range.hpp, to_tuple.hpp, to_constant.hpp"]}
{"id": "C82", "title": "Expressions of operations mean what they say", "statement": "Calling an operation, or an expression built of operations, values and the placeholders x_, l_, r_, gives the value of its mathematical definition: operations in place of arguments are applied to the arguments of the whole, is_greater, is_less_or_equal, is_greater_or_equal, is_not_equal, compare3way, sgn, squared and logical_implies are what their names say, if_else does not evaluate the branch that is not selected, the policy absolute_error makes every comparison tolerant, and operations with an inout argument assign the same value.", "quantifier": "every finite expression over the scalar operations, all arguments, every tolerance", "why_tests_cant": "expressions nest without bound and each is its own type; overloads are resolved at compile time, separately for each expression and combination of argument types", "anchors": ["include/actl/operation/arg.hpp: x_, l_, r_", "include/actl/operation/expression/expression.hpp, evaluate.hpp", "include/actl/operation/operation/operation_base.hpp: operator()", "include/actl/operation/overload/resolve_overload.hpp, resolve_expression.hpp", "include/actl/operation/policy/*.hpp", "include/actl/numeric/arithmetic/*.hpp, comparison/*.hpp, logic/*.hpp", "include/actl/core/if_else.hpp"]}
{"id": "C83", "title": "Every end of an edge is a vertex of the graph", "statement": "In a graph kept as a list of vertices and a list of edges (vertex_edge_list), whatever calls of add_vertex, add_edge (between vertices, or between values where vertices are unique), remove_edge and resize are made, both ends of every edge are vertices of the graph. Adding an edge between the numbers u and v to a graph whose vertices are in a vector adds exactly the missing vertices up to max(u, v), default initialized, and leaves the others as they were. Adding an edge between two values to a graph with unique vertices joins the vertices with these values, adds a vertex only for a value not present, keeps all vertices distinct, and earlier vertices keep their values.", "quantifier": "for all containers, directions, histories of calls, vertices, values and orders of evaluation", "why_tests_cant": "Histories are unbounded, and the failures need a negative vertex, a shrinking resize or an assignment through the graph, which tests that check counts after a few insertions do not make.", "anchors": ["include/actl/graph/vertex_edge_list.hpp:33-57", "include/actl/graph/vertex_list.hpp:34-110"]}
{"id": "C84", "title": "Angles, bisectors and inversion", "statement": "With exact arithmetic and exact square_root and atan2: angle(p) of a point of the plane is its polar angle in (-pi, pi]; angle(l, r) in the plane is the angle in (-pi, pi] by which l is to be turned counterclockwise to get the direction of r, so that angle(l, turned l) gives the angle back, also about another origin, and such angles add up modulo whole turns; in other dimensions it is the angle in [0, pi], the same in both orders. bisector(l, r), unless l and r are opposite, makes half of angle(l, r) with l and is symmetric in l and r. invert(p, radius) and invert(p, sphere) fail exactly for the centre; otherwise the result lies on the ray from the centre to p, the product of the distances to the centre is the square of the radius, inverting twice gives p, points of the sphere and only these stay, and inside and outside are exchanged.", "quantifier": "for all points in every dimension, angles, radii and spheres", "why_tests_cant": "The claims are identities over all real vectors, including negative angles, the angle pi and any dimension; a test compares a few values within a tolerance.", "anchors": ["include/actl/geometry/algorithm/point/angle.hpp:14-34", "include/actl/geometry/algorithm/point/bisector.hpp:13-19", "include/actl/geometry/algorithm/point/invert.hpp:14-28"]}
{"id": "C85", "title": "Invoking the first or all matching elements of a tuple of functions", "statement": "invoke_first_matching(tuple, args...) invokes the first element of the tuple that is invocable with the arguments (does not compile if there is none), and invoke_all_matching(tuple, args...) invokes, in order and once each, exactly the elements that are invocable with the arguments passed by reference.", "quantifier": "for all tuples of functions with any overloads, parameter forms and qualifiers, all argument types and value categories", "why_tests_cant": "Which elements match depends on the combination of constness, value categories and forms of parameters; the tests use parameters by value and by const reference only.", "anchors": ["include/actl/functional/tuple/invoke_first_matching.hpp:14-40", "include/actl/functional/tuple/invoke_all_matching.hpp:17-48"]}
{"id": "C86", "title": "Spans view exactly the requested elements", "statement": "A span made of a pointer and a count, of two pointers or of a contiguous range denotes just these elements; iteration, [], front and back read them, writing through [] changes one element of the memory and no other; first, last and subspan denote the requested part. A request outside the span (index, count, offset, null pointer, wrong static extent) is reported by an assertion. The last part fails: subspan(offset) reports no offset beyond the size, subspan(offset, count) no request whose sum wraps around, and two pointers in the wrong order are accepted.", "quantifier": "all arrays, spans, indices, offsets and counts of size_t", "why_tests_cant": "Tests look at a few literal spans; the wrapped sums need offsets near 2^64 or beyond the end, where the result is a wrong span or undefined behaviour.", "anchors": ["include/actl/range/span.hpp", "include/actl/range/interface/contiguous_range_interface.hpp", "include/actl/range/interface/random_access_range_interface.hpp", "include/actl/range/interface/bidirectional_range_interface.hpp", "include/actl/range/interface/basic_range_interface.hpp", "include/actl/range/utility/size_holder.hpp"]}
{"id": "C87", "title": "Copying between ranges", "statement": "ranges::copy to a position writes the elements of the source there in order, first to last, and returns the position past the last one; to a range of another size it reports an assertion. The target then denotes the elements of the source and nothing else changes, unless the target starts inside the source: then the elements of the source before the start of the target are repeated.", "quantifier": "all arrays and all pairs of source and target, overlapping or not", "why_tests_cant": "The overlapping cases depend on the relative positions and lengths in infinitely many ways; tests copy between separate arrays.", "anchors": ["include/actl/range/operation/copy.hpp"]}
{"id": "C88", "title": "Manipulators change the settings they name", "statement": "Every value among the arguments of write or read is written with the settings of the manipulators before it (also those of earlier calls to a formatted device), and nested scopes restore the level of indentation in every part of a composed format. It fails for the base manipulators (hex, octal, decimal), which are ignored by every format, and flag manipulators do not compile with any format but a plain text format.", "quantifier": "all sequences of manipulators and values, all formats", "why_tests_cant": "There are unboundedly many sequences and compositions; no test passes a base manipulator to write, tests assign the member instead.", "anchors": ["include/actl/io/core/manipulator.hpp", "include/actl/io/core/read_write.hpp:50-66", "include/actl/io/format/composed_format.hpp:54-58", "include/actl/io/format/text/text.hpp:98-145", "include/actl/io/format/text/settings/base.hpp", "include/actl/io/device/wrapper/formatted.hpp"]}
{"id": "C89", "title": "Equality of sequences", "statement": "is_equal_sequence of two tuples, two ranges with random access, or a tuple and a range, in either order, whose elements are integers of any built-in types, is true exactly when they have the same number of elements and the same number at every position, and reads no element past the end; the result does not depend on the order of the arguments. Two semi-static arrays of the same type are equal exactly when all their elements are equal. The type chosen by semi_static_array_t is never ambiguous: a static array if no value is dynamic, an ordinary array if all are and there are any, a semi-static one otherwise.", "quantifier": "All sequences of any sizes and values, all combinations of integer types, all packs of static and dynamic values", "why_tests_cant": "Tests compare a few pairs of sequences with at most two elements, all of signed types", "anchors": ["include/actl/container/equality/ranges.hpp", "include/actl/container/equality/tuples.hpp", "include/actl/container/equality/range_tuple.hpp", "include/actl/container/equality/arrays.hpp", "include/actl/container/array/semi_static_array.hpp", "include/actl/container/array/semi_static_array_selector.hpp"]}
{"id": "C90", "title": "Handles of the edges of an adjacency list identify them", "statement": "After any sequence of insertions the handles returned for the accepted ones are pairwise different, have the ends of their calls and (by graph[e]) their bundles; every edge met by out_edges and in_edges equals (==) exactly one of them, the one with its ends (in either order if the graph is undirected) and bundle. ==, < and the hash are consistent: == is an equivalence, exactly one of <, ==, > holds, < is transitive, equal handles hash equally.", "quantifier": "for all sequences of insertions, kinds of containers, directions, with and without an edge container, all handles", "why_tests_cant": "a handle may be used after arbitrarily many further insertions, and collide only for certain positions of edges in the lists of two vertices", "anchors": ["include/actl/graph/detail/edge.hpp:13", "include/actl/graph/adjacency_list.hpp:147", "include/actl/graph/adjacency_list.hpp:207", "include/actl/graph/adjacency_list.hpp:301"]}
{"id": "C91", "title": "Predecessor edges form the tree of predecessors", "statement": "After a search recording predecessors and predecessor edges, the edge recorded for a vertex whose predecessor is another vertex is an out-edge of that predecessor and enters the vertex; the map keeps its values at the sources and at the vertices not reached.", "quantifier": "every finite graph, every sources, breadth-first and depth-first searches, from sources and of the whole graph", "why_tests_cant": "unbounded graphs; parallel edges and the order of events decide which edge is recorded", "anchors": ["include/actl/graph/traversal/predecessor_edge_recorder.hpp:14", "include/actl/graph/traversal/breadth_first_search.hpp:33", "include/actl/graph/traversal/depth_first_search.hpp:80"]}
{"id": "C92", "title": "Operations on built-in integers obey the laws they declare", "statement": "For numbers of any two built-in integer types, add and multiply give the sum and product modulo 2^bits of the result type (exact, and undefined only on overflow, if that type is signed); bit_and, bit_or, bit_xor and bit_not act on each binary digit; max is the greater number unless a negative one is converted to an unsigned type. All of them commute. On three numbers of one type the order of evaluation does not matter (for signed sums and products: if both orders are defined). identity_element gives a value of the type with which the operation returns the other argument unchanged. op(inout{x}, y) leaves x with its type and the result modulo its width, whatever the type of y and the position of x.", "quantifier": "all integer types (width, signedness), all values, all operations", "why_tests_cant": "all values of all pairs and triples of types; overflow in one order of evaluation only", "anchors": ["include/actl/numeric/arithmetic/additive/add.hpp:38", "include/actl/numeric/arithmetic/multiplicative/multiply.hpp:37", "include/actl/numeric/bit/bit_and.hpp:37", "include/actl/numeric/bit/bit_or.hpp:37", "include/actl/numeric/bit/bit_xor.hpp:37", "include/actl/numeric/bit/bit_not.hpp:24", "include/actl/numeric/comparison/min_max.hpp:15", "include/actl/operation/operation/operation_base.hpp:68", "include/actl/operation/operation/inout.hpp:17"]}
{"id": "C93", "title": "Output parameters denote and write the wrapped object", "statement": "However often a reference wrapped into out or inout is passed on to parameters of such types, it denotes the same objects in the end, and becomes an inout only if it was one at every step. Assigning to a wrapper writes the assigned value to the wrapped object and to nothing else, never rebinds the wrapper, and returns the wrapped reference; this holds for references to numbers, to single bits and for views.", "quantifier": "all memories, all references, all chains of conversions, all sources (values, references, wrappers of any category)", "why_tests_cant": "aliasing between source and target, chains of conversions of any length, all memories", "anchors": ["include/actl/functional/parameter/out.hpp:47", "include/actl/functional/parameter/inout.hpp:49"]}
{"id": "C94", "title": "Common types, the promotion policy and the common value", "statement": "strict_common_type_t of any list of types is the only type that is not a constant if there is exactly one such type, the first type if all are constants, and does not compile if two types that are not constants differ; apart from constants the order does not matter. common(xs...) yields the value that all arguments share and fails its assertion if two differ, whatever their order and grouping. With the policy allow_promotion, arithmetic, comparison, max and if_else of two numbers of any built-in integer types give what they give without it, and common compares numbers of different types.", "quantifier": "all lists of types; all lists of numbers of all built-in integer types", "why_tests_cant": "The types and the numbers of arguments are unbounded, and the conversions depend on all pairs of widths and signs.", "anchors": ["include/actl/meta/strict_common_type.hpp:16", "include/actl/core/common.hpp:15", "include/actl/numeric/conversion/allow_promotion.hpp:20"]}
{"id": "C95", "title": "Iterator adaptors behave like pointers to the transformed elements", "statement": "Any program that uses transform_iterator over the iterators of an array (dereferencing, ->, pre- and post-increment and -decrement, +=, -=, +, -, [], difference, == and three-way comparison, copying), as far as the iterator category of the adapted iterator allows, shows what it shows with pointers into an array of the transformed elements, and is undefined only if it is for those; a loop from begin to end visits f of each element in order. Operators that the category lacks do not compile.", "quantifier": "all arrays, functions, categories, numbers of iterators and programs", "why_tests_cant": "Programs and arrays are unbounded.", "anchors": ["include/actl/range/iterator/interface/iterator_adaptor.hpp:30", "include/actl/range/iterator/transform_iterator.hpp:17", "include/actl/range/iterator/interface/random_access_iterator_interface.hpp:19", "include/actl/range/iterator/interface/basic_iterator_interface.hpp:53"]}
{"id": "C96", "title": "Searches of a graph built by insertions tell the truth about the inserted edges", "statement": "After any sequence of edge insertions into an adjacency list, breadth-first search records the length of a shortest path along the inserted edges (or -1), depth-first search discovers exactly the vertices with such a path, topological sort puts every inserted edge's target before its source, component numbers equate exactly the connected vertices, and bridges are exactly the inserted edges whose omission disconnects their ends.", "quantifier": "every insertion history (loops, repeated and reversed edges), every direction, every kind of out-edge and edge container, every source", "why_tests_cant": "A wrong answer needs a particular interplay of storage (refused duplicates, second ends of undirected edges, ids) and search order; histories are unbounded.", "anchors": ["include/actl/graph/adjacency_list.hpp:294", "include/actl/graph/vertex_list.hpp:73", "include/actl/graph/detail/edge.hpp:23", "include/actl/graph/traversal/breadth_first_search.hpp:33", "include/actl/graph/traversal/depth_first_search.hpp:130", "include/actl/graph/connectivity/bridges.hpp:113"]}
{"id": "C97", "title": "Comparisons of ranges and tuples agree with each other and use the given tolerance", "statement": "For ranges, tuples and any nesting of them, is_equal tells whether the structure is the same and all numbers are equal (with absolute_error(eps): differ by at most eps), and is_not_equal the opposite; compare3way returns a number whose sign is the lexicographical order, and is_less, is_greater, is_less_or_equal, is_greater_or_equal tell exactly its sign, with the same tolerance if one is given.", "quantifier": "all nested structures of ranges and tuples of numbers, all operands of matching type, all tolerances", "why_tests_cant": "The disagreements need particular combinations: a proper prefix, a one-element tuple, a tolerance with an ordering; structures nest without bound.", "anchors": ["include/actl/operation/operation/composite_operation.hpp:13", "include/actl/range/operation/is_equal_range.hpp:18", "include/actl/range/operation/lexicographical_compare_range.hpp:19", "include/actl/sequence/tuple/is_equal_tuple.hpp:18", "include/actl/sequence/tuple/lexicographical_compare_tuple.hpp:20", "include/actl/numeric/comparison/ordering.hpp:35"]}
{"id": "C98", "title": "Structured values written as text read back", "statement": "Write any value built from integers, booleans, characters and strings without whitespace, tuples, arrays, vectors and lists through 'spaced{space} >>= text'. The text is the numbers, booleans, characters and strings of the value in order (every vector or list preceded by its size), with exactly one separator between neighbours and none elsewhere, whatever the nesting. Reading that text into any object of the same type (lists empty) through 'skipws >>= text' or through the same 'spaced >>= text' succeeds, gives an equal value and leaves nothing but whitespace unread; followed by a separator and further text, reading stops before that separator.", "quantifier": "for all types nested to any depth, all values, all previous contents of the target, all bases 2-36 and number flags, both boolean notations, all separators that cannot continue a number (whitespace, for skipws and for values with strings)", "why_tests_cant": "Types nest without bound, and the failing values (a zero or an empty container followed by anything) are not in the tests, which use non-zero samples.", "anchors": ["include/actl/io/argument/range.hpp", "include/actl/io/argument/tuple.hpp", "include/actl/io/argument/size.hpp", "include/actl/io/format/text/skipws.hpp", "include/actl/io/format/text/decorator/spaced.hpp", "include/actl/io/format/composed_format.hpp", "include/actl/io/core/read_write.hpp", "include/actl/io/format/text/parser/string.hpp", "include/actl/io/argument/byte.hpp"]}
{"id": "C99", "title": "File devices deliver and keep every character once and in order", "statement": "A file device opens the file for exactly the directions its mode names; 'in' alone and 'in | out' keep the contents, 'out' alone and 'trunc' discard them, 'app' keeps them and appends. get and read in any order deliver the characters of the file one after another, and eof tells whether more were asked for than there are. peek returns the next character (a zero at the end) and does not change what is delivered next; skipping characters stops at the first other character or at the end of the file. What is written is in the file in order when the device is destroyed, and reading and writing can be mixed.", "quantifier": "for all modes, all file contents, all sequences of get/read/write operations, all predicates", "why_tests_cant": "Files of the library are not covered by tests at all; the failures need a look past the last character, an update mode, or input and output in a row.", "anchors": ["include/actl/io/device/file.hpp", "include/actl/io/device/mode.hpp", "include/actl/io/utility/skip.hpp"]}
{"id": "C100", "title": "Sets and maps in binary format read back", "statement": "Writing a value containing std::set, std::multiset, std::map or std::multimap objects (nested in pairs, vectors and each other) to a binary device and reading the bytes into an object whose sets and maps are empty succeeds, gives an equal value and leaves what follows unread.", "quantifier": "for all such types, all comparisons and all sorted contents, all following bytes", "why_tests_cant": "Types and contents are unbounded; the tests read no associative container at all.", "anchors": ["include/actl/io/argument/range.hpp", "include/actl/io/argument/const_byte_span.hpp", "include/actl/io/format/binary/binary.hpp", "include/actl/container/functions.hpp"]}
{"id": "C101", "title": "Biconnected components", "statement": "find_biconnected_components, on an undirected graph and with an empty component map, terminates; gives every edge that is not a loop exactly one number and numbers nothing else; and two edges get the same number if and only if they are in the same biconnected component. find_articulation_points_and_components marks the same vertices as find_articulation_points.", "quantifier": "for all finite undirected graphs, with loops and parallel edges, all orders of vertices and of edges at vertices, all ways edges are compared", "why_tests_cant": "The tests check two graphs with one order of edges; the numbers depend on the order in which edges are listed and on the whole structure of the graph.", "anchors": ["include/actl/graph/connectivity/articulation_points.hpp:22-124", "include/actl/graph/connectivity/detail/component_stack.hpp:14-52", "include/actl/graph/detail/edge.hpp:34-49"]}
{"id": "C102", "title": "Documented running times", "statement": "The running times that the documentation promises hold. queue_using_stacks is amortized O(1): any sequence of calls on an initially empty queue calls functions of the two inner stacks at most 5 times per call (while a single pop may move all elements). extreme_vertex is O(log N): at most 3*ceil(log2 N)+2 comparisons of vertices for any list of at least two vertices and any direction. Intersection of a line with a strictly convex polygon is O(log N): at most 8*ceil(log2 N)+6 orientation tests. antipodal_vertices and max_distance are O(N): at most 2N-2 pairs. convex_hull makes at most 3N-2 orientation tests besides sorting. nearest(points) takes at most 13*N*ceil(log2 N) steps besides sorting. binary_pow multiplies at most 2*log2(power)+1 times.", "quantifier": "for all histories / polygons / directions / lines / point sets / exponents", "why_tests_cant": "A test measures particular sizes and cannot exclude an input on which a loop degenerates; the bound for the closest pair rests on a packing argument.", "anchors": ["include/actl/container/adaptor/queue_using_stacks.hpp:14", "include/actl/geometry/algorithm/polygon/extreme_vertex.hpp:15-53", "include/actl/geometry/algorithm/intersect/line_convex_polygon.hpp:16-61", "include/actl/geometry/algorithm/polygon/max_distance.hpp:16-25", "include/actl/geometry/algorithm/convex_hull/andrew_monotone_chain.hpp:23-57", "include/actl/geometry/algorithm/nearest/multi_point.hpp:19-78", "include/actl/numeric/algorithm/binary_pow.hpp:14-25"]}
{"id": "C103", "title": "Geometry on integer coordinates does not overflow in a box", "statement": "For points with signed integer coordinates inside any axis-parallel square of side D (anywhere in the plane), with D representable in the coordinate type and D*D representable in the type of products: orientation of three points, convex_hull, within(point, triangle), winding_number and within(point, simple polygon) perform no signed overflow and no access outside the array, and give exactly the results of exact arithmetic. The bound cannot be improved: in every larger square three corners make orientation and convex_hull overflow. For the area of a polygon the bound is n*X*D, X the largest |x|; it depends on the position: a triangle of doubled area h next to the line x overflows as soon as x*h does not fit.", "quantifier": "for all widths of coordinates and products, all squares, all point sets and polygons in them", "why_tests_cant": "Overflow depends on extreme coordinates in particular positions; random tests with small coordinates never reach it, and the exact limit of safe coordinates can only be shown by proof.", "anchors": ["include/actl/geometry/algorithm/area/point_point.hpp:17-22", "include/actl/geometry/algorithm/orientation/point_point.hpp:14-29", "include/actl/geometry/algorithm/convex_hull/andrew_monotone_chain.hpp:27-57", "include/actl/geometry/algorithm/within/triangle.hpp:18-36", "include/actl/geometry/algorithm/polygon/winding_number.hpp:19-57", "include/actl/geometry/algorithm/area/simple_polygon.hpp:16-29"]}
{"id": "C104", "title": "Access to tensor elements is checked and independent", "statement": "For a tensor: with assertions enabled, t(i, j, ...) and t[i][j]... accept exactly one index per dimension with 0 <= index < dimension (negative, too large, too few and too many indices are all caught) and then refer to the same element of the storage; assigning to an element through either way changes that element, however it is read, and no other element; t[0], t[1], ... are views of the rows whose elements one after the other are the elements of t in iteration order, with the remaining dimensions.", "quantifier": "for all ranks, dimensions (volume below 2^64), index lists, contents and views", "why_tests_cant": "Tests index a few small tensors; an aliasing or a missed range check shows only for particular dimensions and indices.", "anchors": ["include/actl/container/tensor.hpp:305-366", "include/actl/container/tensor.hpp:408-484"]}
{"id": "C105", "title": "Programs over modular integers compute in the ring of integers modulo m", "statement": "Any sequence of constructions, copies, +=, -=, *=, /=, +, -, *, / and unary - on ring_element / int_modulo variables (operands may coincide with each other and with the assigned variable) leaves in every variable the residue in [0, m) of the value the same operations have in the integers modulo m, starting from elements constructed from any number; == decides equality of residue classes; a division throws exactly when no quotient exists and then leaves every variable as it was; modulo a prime the results are those of the field.", "quantifier": "every width, every modulus, every sequence of operations of any length, every initial store", "why_tests_cant": "the invariant (canonical representatives) has to hold along executions of unbounded length; tests check single operations", "anchors": ["include/actl/numeric/modular/ring.hpp: ring_element, int_modulo"]}
{"id": "C106", "title": "The random engine has full period", "statement": "Unless its state is zero, xoroshiro128cplus returns to a state after exactly the multiples of 2^128-1 calls, passes through every nonzero state in between, and its sequence of returned values has no eventual period that is not a multiple of 2^128-1; hence all nonzero generators produce the same values up to a shift.", "quantifier": "every nonzero state, every number of calls, every shift", "why_tests_cant": "The period has 39 digits; no run can observe it.", "anchors": ["include/actl/numeric/random/xoroshiro128cplus.hpp:18-28"]}
{"id": "C107", "title": "Maps nested to any depth keep the map laws", "statement": "For every map built from identity, shift, function, container, associative and accounting maps by composing and filtering them to any depth: get returns the composed value and changes no other one, put makes the key and exactly the keys stored at the same place have the new value, invert finds exactly the key with the given value, a traversal meets every key of the domain once with its value, and over any history a key has the value last written to its place. Where the traits promise an operation that cannot be called (reading a filtered map filtered again, traversing a composite whose outer map is held by reference) this is stated.", "quantifier": "every nesting, every state, every history of uses", "why_tests_cant": "Nestings and histories are unbounded, and the branch taken depends on the capabilities of all parts.", "anchors": ["include/actl/map/composite_map.hpp:58-139", "include/actl/map/filtered_map.hpp:22-87", "include/actl/map/traits.hpp:33-139", "include/actl/map/accounting_map.hpp:20-65", "include/actl/map/generic_container.hpp:32-58", "include/actl/map/pair_associative_container.hpp:15-44"]}
{"id": "C108", "title": "Structured values written to a device read back from a device", "statement": "A value built from integers, booleans, characters, strings, tuples, arrays and containers, written with write(device, spaced{sep} >>= text, x) to a buffered, memory or string device, puts exactly its text on the device (on a memory device as much as fits, reporting whether all of it did). Reading with read(device, fmt, y) from a buffered, memory or string device gives the same result, the same object and the same remaining input as reading from the whole remaining text at once (past the end if a character was missing), whatever the capacity of the buffer, and terminates. Hence a value written through one of these devices is read back through any of them under the same conditions as from a plain text.", "quantifier": "all types and values of the kinds named, all settings, buffers of every capacity, all contents of the device, positions and later reads", "why_tests_cant": "How the text is cut into buffers depends on the capacity of the buffer and on the lengths of all pieces; a test tries a few sizes, while the failures are exactly at coincidences of a piece with a boundary of the buffer.", "anchors": ["include/actl/io/core/parser_executor.hpp", "include/actl/io/device/wrapper/buffered.hpp", "include/actl/io/device/memory.hpp", "include/actl/io/device/string.hpp", "include/actl/io/utility/till.hpp", "include/actl/io/utility/skip.hpp", "include/actl/io/core/batch.hpp", "include/actl/io/argument/byte.hpp"]}
{"id": "C109", "title": "Binary values written to a device read back from a device", "statement": "A value built from numbers, tuples, arrays and containers, written in the binary format to a string, memory, file or buffered device, puts exactly its bytes on the device (on a memory device as many as fit, reporting whether all did), and reading in the binary format from any such device on which these bytes come next gives the value back and leaves the device right behind them, whatever the capacity of the buffer and even on a buffered reader nothing was read from before. If the bytes end too early, reading reports failure.", "quantifier": "all types and values of the kinds named, all objects read into (containers without random access empty), buffers of every capacity, all contents before and behind", "why_tests_cant": "The numbers of a value meet the boundaries of the buffer in ways that depend on all sizes at once; a test tries a few sizes, and the failing ones are exactly those where a number ends on a boundary.", "anchors": ["include/actl/io/argument/byte_span.hpp", "include/actl/io/argument/range.hpp", "include/actl/io/argument/tuple.hpp", "include/actl/io/format/binary/binary.hpp", "include/actl/io/device/wrapper/buffered.hpp", "include/actl/io/device/file.hpp", "include/actl/io/device/memory.hpp", "include/actl/io/device/string.hpp"]}
{"id": "C110", "title": "Orders of the depth-first tree", "statement": "From every source there is exactly one depth-first tree (following out-edges in order, never to a vertex reached before); it contains the vertices reachable from the source, each once. preorder, postorder and inorder end and put out exactly the orders of this tree: roots before their children, roots behind their children, and each vertex between each pair of consecutive children or once behind them if there are less than two. inorder puts out every reachable vertex max(1, children-1) times, between n and 2n-3 vertices in all (n >= 3), n exactly if no vertex has more than two children and 2n-3 for every star. On binary trees the output is the standard inorder.", "quantifier": "for every graph, every source, every initial content of the maps", "why_tests_cant": "An order is tested on one tree of seven vertices with one child list; the claim quantifies over all graphs, all orders of out-edges and all shapes of trees.", "anchors": ["include/actl/graph/traversal/order.hpp:15-52", "include/actl/graph/traversal/order.hpp:54-87", "include/actl/graph/traversal/depth_first_search.hpp:80-137"]}
{"id": "C111", "title": "Adjacency lists under any mixture of vertex and edge insertions", "statement": "A graph without an edge container may be built by calls of try_add_vertex and try_add_edge in any order, with any kind of container for the vertices (numbered, list, set, multiset, hashed) and for the out-edges. Every allowed call succeeds. Every vertex ever returned stays valid and keeps its value; with a unique vertex container the same vertex is returned exactly for equal values, otherwise always a new one; numbered vertices are 0..n-1 with n told by the history. The edges, out-edges, in-edges, bundles and edge_count are those of the edge calls, whatever vertex calls came between. Depth-first and breadth-first search, components and the topological sort on such a graph answer truthfully about paths along the edges of the calls. Removing a vertex removes its edges.", "quantifier": "for every history of allowed calls, every kind of vertex and out-edge container, every order of iteration of hashed containers, every direction selector", "why_tests_cant": "Tests build a graph of one kind with a few calls in one order; that handles survive and edges stay right is a claim about all interleavings, container kinds and orders of iteration.", "anchors": ["include/actl/graph/adjacency_list.hpp:252-348", "include/actl/graph/vertex_list.hpp:43-110", "include/actl/graph/detail/adj_list_vertices.hpp:15-87", "include/actl/graph/detail/adj_list_traits.hpp:69-101"]}
{"id": "C112", "title": "Searching for a vertex", "statement": "Breadth-first search with a predicate ends at a vertex that satisfies it and is nearest to the sources, as the last vertex discovered and the only one that satisfies it; its recorded distance is its distance and the predecessors lead back to a source along edges past no other such vertex; when none can be reached, it ends with the null vertex after discovering all reachable vertices. Depth-first search from a source ends at the first such vertex in the order of the search without predicate, with the path back to the source, or exhausts what can be reached. The search of the whole graph goes on after a vertex was found: every vertex is discovered once, and every vertex that satisfies the predicate ends the search of its tree.", "quantifier": "every well-formed graph, every predicate, every list of distinct sources, every initial content of the maps", "why_tests_cant": "Which vertex is met first depends on the whole order of the search; a test fixes a graph and a predicate, the claim is about all, including predicates that no vertex, or only unreachable vertices, satisfy.", "anchors": ["include/actl/graph/traversal/breadth_first_search.hpp:33-82", "include/actl/graph/traversal/depth_first_search.hpp:80-155"]}
{"id": "C113", "title": "Searches take linear time and bounded memory", "statement": "Depth-first search from a source makes exactly as many loop iterations as there are vertices that can be reached and edges that leave them; breadth-first search takes every reachable vertex from the queue once. The number of calls to components is four per reachable vertex, one per edge that leaves such a vertex, and one per search. The stack of depth-first search never holds as many contexts as there are reachable vertices, the queue of breadth-first search never more vertices than these. The greatest size of the stack is the greatest number of tree edges started and not yet finished, that of the queue the greatest number of vertices discovered and not yet taken from it.", "quantifier": "every well-formed graph, every source or list of distinct sources, every initial content of the flags", "why_tests_cant": "Running time on all graphs is a statement about counts for arbitrary size; a test measures some sizes and cannot tell linear from slightly superlinear, nor exclude a pathological graph.", "anchors": ["include/actl/graph/traversal/depth_first_search.hpp:80-155", "include/actl/graph/traversal/breadth_first_search.hpp:33-82"]}
{"id": "C114", "title": "Numbers kept by searches fit in int", "statement": "At every moment of a search of a graph with N vertices, recorded distances are between -1 and N - 1, entry times between -1 and N - 1, exit times written and the clock between 0 and N, component numbers and their count at most N; hence int arithmetic does not overflow for fewer than 2^31 vertices, and the clock ends at exactly N.", "quantifier": "every well-formed graph, every source list, every initial content of the maps, every moment of the search", "why_tests_cant": "Overflow needs graphs with billions of vertices, and a violated intermediate bound may leave no trace in the final result.", "anchors": ["include/actl/graph/traversal/distance_recorder.hpp:16-41", "include/actl/graph/traversal/time_stamper.hpp:17-66", "include/actl/graph/connectivity/connected_components.hpp:19-45"]}
{"id": "C115", "title": "Searches in polygons with integer coordinates do not overflow in a box", "statement": "For signed integer coordinates inside any axis-parallel square of side D, with D representable in the coordinate type and D*D in the type of products: within(point, monotone_polygon), within(point, convex_monotone_polygon), tangents(point, convex_polygon) and antipodal_vertices(strictly convex polygon) perform no signed overflow and no access outside the array beyond those of exact arithmetic, and give exactly its results; in particular within(point, monotone_polygon) agrees with the winding number for every simple monotone polygon with a left turn at its leftmost vertex. The bound cannot be improved: in every larger square there is a triangle for which each of them overflows. Comparisons of sort_by_angle are exact and do not overflow for coordinates up to M in absolute value if 2*M*M is representable, and overflow for two points otherwise.", "quantifier": "for all widths of coordinates and products, all squares, all polygons and points in them", "why_tests_cant": "Overflow depends on extreme coordinates in particular positions; the exact limit of safe coordinates can only be shown by proof.", "anchors": ["include/actl/geometry/algorithm/within/monotone_polygon.hpp:16-42", "include/actl/geometry/algorithm/within/convex_monotone_polygon.hpp:16-56", "include/actl/geometry/algorithm/polygon/extreme_vertex.hpp:15-53", "include/actl/geometry/algorithm/tangents/point_convex_polygon.hpp:15-29", "include/actl/geometry/algorithm/polygon/antipodal_vertices.hpp:15-31", "include/actl/geometry/algorithm/point/sort_by_angle.hpp:40-57"]}
{"id": "C116", "title": "Rebinding a container changes exactly its element type", "statement": "Rebinding a container type to another element type (rebind_t, rebind_container_t) gives the same container of the new elements, for every class template whose first parameter is the element type and whose other parameters are the element type, templates of it at any depth (allocators, underlying containers), function objects of it, or types unrelated to it; also for arrays and std::array. Function objects (std::less, std::equal_to, hash_function) become transparent. Rebinding twice is rebinding once, rebinding back restores the type, and rebinding from or to none gives the container which only counts.", "quantifier": "all container templates of that form, all element types, all function object parameters", "why_tests_cant": "The tests check five types; the claim is about every template and every nesting of element types.", "anchors": ["include/actl/meta/rebind.hpp:19-82", "include/actl/meta/template_type.hpp:13-26", "include/actl/std/array.hpp:20-28", "include/actl/numeric/hash.hpp:97-100", "include/actl/container/traits.hpp:16-20"]}
{"id": "C117", "title": "Stored expressions read cheap arguments at their creation and others at their evaluation", "statement": "An expression made by calling an operation, kept in a variable and evaluated later gives the value of what was written, where temporaries (in particular nested calls) are kept, named arguments and operations of cheap types have the value they had when the expression was created, and all others have the value they have when it is evaluated, through expressions with names to any depth. Evaluation is defined exactly when the expression and every object it refers to in this way still exist; so an expression with cheap arguments only is independent of everything that happens later, and one evaluated in the place where it is written has the value of what is written, whatever copies are cheap.", "quantifier": "every program of creations, assignments, calls of operations and ends of lifetimes; every nesting of expressions; every choice of which types are cheap to copy", "why_tests_cant": "Lifetimes depend on the whole program; access after the end of a lifetime usually goes unnoticed by a test, and which copies are cheap depends on the compiler.", "anchors": ["include/actl/operation/expression/value_if_cheap.hpp:11-31", "include/actl/operation/expression/expression_data.hpp:35-58", "include/actl/operation/expression/expression.hpp:41-42", "include/actl/operation/expression/evaluate.hpp:32-62", "include/actl/operation/operation/operation_base.hpp:42-59"]}
{"id": "C118", "title": "Sets and maps written as text", "statement": "Writing values with sets, multisets, maps and multimaps nested in pairs and vectors through 'spaced{space, colon} >>= text' gives the size of each container and its pieces in order of iteration, with the colon between each key and its value and the separator between any other two pieces. Reading the text of such a value into an object whose sets and maps are empty, through 'skipws >>= text' or 'spaced >>= text', succeeds and gives an equal value under the conditions under which lists in place of the sets read back, and stops before a separator that follows.", "quantifier": "for all types nested to any depth, all values whose sets and maps are sorted by any comparison, all settings, all texts behind", "why_tests_cant": "Nesting is unbounded; the tests only write one map and read neither sets nor maps.", "anchors": ["include/actl/io/argument/range.hpp:21-86", "include/actl/io/format/text/decorator/spaced.hpp:54-80", "include/actl/io/core/batch.hpp:22-40", "include/actl/container/functions.hpp:20-25", "include/actl/io/format/text/parser/arithmetic.hpp:23-27"]}
{"id": "C119", "title": "Point in simple polygon separates inside from outside", "statement": "For a simple polygon (different vertices; a point common to two edges is an end of both) of three or more vertices: winding_number of a point off the border is 0 or 1 if the vertices are given counter-clockwise (left turn at the lexicographically least vertex) and 0 or -1 otherwise. within(point, simple_polygon) gives two points off the border the same answer exactly if they can be joined by a chain of segments that does not meet the border; it answers outside exactly for the points off the border that can be joined to points arbitrarily far away, inside exactly for those that cannot, and border exactly on the edges. Close to every point of an edge that is no vertex one side of the edge is inside and the other outside: the inside is on the left if the polygon is counter-clockwise and on the right otherwise.", "quantifier": "every simple polygon of three or more vertices, convex or not, and every point; coordinates in any ordered field", "why_tests_cant": "The claim is about connectedness of all points of the plane, for every polygon: it is the Jordan curve theorem for polygons together with the correctness of the counting rule at vertices and horizontal edges.", "anchors": ["include/actl/geometry/algorithm/polygon/winding_number.hpp:19-57", "include/actl/geometry/algorithm/within/simple_polygon.hpp:15-27"]}
{"id": "C120", "title": "Orientation of a simple polygon", "statement": "orientation(simple_polygon) of a simple polygon of three or more vertices is left or right, never collinear. It is left exactly if area(simple_polygon) is positive and right exactly if it is negative. Close to every point of an edge that is no vertex, within(point, simple_polygon) is inside on the left of the edge exactly if the orientation is left, and inside on the right of it exactly if the orientation is right. With fewer than two vertices an assertion fails.", "quantifier": "every simple polygon of three or more vertices, convex or not, every edge and every direction to its left; coordinates in any ordered field", "why_tests_cant": "Three independent algorithms (turn at the least vertex, sum of products, counting of crossings) agree on every polygon; a test compares them on a few.", "anchors": ["include/actl/geometry/algorithm/orientation/simple_polygon.hpp:17-23", "include/actl/geometry/algorithm/area/simple_polygon.hpp:16-29", "include/actl/range/algorithm.hpp:137-140"]}
{"id": "C121", "title": "Operators of points in place, with aliased operands", "statement": "p += q and p -= q add and subtract, coordinate by coordinate, the value q had before, also when q is p itself. p *= f multiplies every coordinate by the value f had before when f is not a coordinate of p. When f is the coordinate k of p it does so exactly if that coordinate is 0 or 1 or all coordinates behind it are 0: the coordinates behind k are multiplied by the square. p /= f divides by zero exactly if f is 0; otherwise it divides every coordinate by the value f had when f is not a coordinate of p, and when f is the coordinate k exactly if that coordinate is 1 or all coordinates behind it are 0: the coordinates behind k stay as they are. The quotient into a new point is right for every f, and an assertion fails exactly for 0. swap exchanges two points and leaves a point swapped with itself as it is.", "quantifier": "every dimension, every point and operand over every field, every coordinate the factor may refer to", "why_tests_cant": "The aliasing cases are easily forgotten and the first coordinates come out right", "anchors": ["include/actl/geometry/point.hpp:72-76", "include/actl/geometry/point.hpp:106-145", "include/actl/geometry/point.hpp:200-209"]}
{"id": "C122", "title": "Tensors as objects: construction, moves, swaps and views", "statement": "A program that constructs tensors (with dimensions in the type, of static or of dynamic rank; uninitialised, filled with a value or from a range), copies, moves, assigns, swaps and destroys them, takes views of whole tensors and of rows and writes through tensors and views shows what mathematical arrays show: every element is found by its index tuple, other tensors are not affected, a view sees and changes the elements it was taken of, iteration goes through the elements in the order of the index tuples; a view of a tensor with allocated storage follows the elements through moves and swaps, a view of a tensor stored in place stays with the tensor. Construction takes exactly the given dimensions, and a tensor that was moved from has no elements.", "quantifier": "every program, every type of tensor, all dimensions, element types and contents", "why_tests_cant": "aliasing and lifetime errors only show in particular sequences of moves, swaps and accesses, and reading freed or foreign storage often gives the expected value", "anchors": ["include/actl/container/tensor.hpp: tensor_container, tensor_data, tensor_dims, tensor_shape, tensor_base, swap, tensor_view"]}
{"id": "C123", "title": "Input of real numbers with rounding", "statement": "Reading a floating point number with the default text parser, in arithmetic whose operations and conversions round with relative error u, consumes the characters it should, stores a value exactly if there is a digit before the point, and the value is the number that is written up to 3 n + 2 roundings, where n is the number of consumed characters, whatever the division into buffers (a number is v up to k roundings if its quotient by v is between (1-u)^k and its inverse). In one buffer a number whose digits before and after the point fit in 64 bits is converted with one rounding if it has no digits after the point, and otherwise is read up to five roundings. If the integers up to N are representable, every number with an integer value of magnitude up to N is read exactly, with any number of zeros after the point and any division into buffers; so integers written by the output in any base and precision are read back exactly, and any number is read back with the error of the output and these roundings. The value read is the nearest representable number and does not depend on the division into buffers.", "quantifier": "every field with an order, every rounding function with relative error u < 1, every base 0 or 2..36, every text, every division into non-empty buffers; for the round trips every number, format and precision for which the output works", "why_tests_cant": "The error bound is over all roundings and texts of unbounded length; tests compare a few values with a tolerance.", "anchors": ["include/actl/io/format/text/parser/float_unchecked.hpp:17-97", "include/actl/io/format/text/parser/uint_unchecked.hpp:14-45", "include/actl/io/format/text/arithmetic/real_write.hpp:60-110"]}
{"id": "C124", "title": "Structured values with real numbers written as text read back", "statement": "Write any value built from floating point numbers, integers, booleans, characters, strings without whitespace, tuples, arrays, vectors and lists (points, segments, polygons, matrices) through 'spaced{space} >>= text'. The text is the pieces of the value in order with exactly one separator between neighbours, each floating point number a sign and a fixed point numeral nearest to it at the given precision. Reading that text into any object of the same type through 'skipws >>= text' or 'spaced >>= text' succeeds and gives a value of the same shape with the same integers, booleans, characters and strings, in which every floating point number differs from the written one by at most half a unit of the last written digit and the rounding errors of five operations, and equals it if it is an integer that the type represents without gaps; nothing but whitespace is left unread.", "quantifier": "for all types nested to any depth, all finite values below 2^64 divided by the base, all precisions for which the power of the base is small against the precision of the floating point type, all floating point roundings, bases 2-36 without prefixes, number flags, separators", "why_tests_cant": "Tests write and read single numbers; the error bound holds for every number inside every nesting, and the values that do not survive (a zero integer or an empty container followed by anything) are not in the tests.", "anchors": ["include/actl/io/format/text/arithmetic/real_write.hpp", "include/actl/io/format/text/parser/arithmetic.hpp", "include/actl/io/argument/range.hpp", "include/actl/io/argument/tuple.hpp", "include/actl/io/format/text/decorator/spaced.hpp", "include/actl/io/format/text/skipws.hpp"]}
{"id": "C125", "title": "Geometry in floating point", "statement": "On points of a floating point type, orientation of three points is right whenever twice the area of their triangle exceeds (1+u)^3-1 times the sum of the two products it is the difference of (u the relative error of one operation), says collinear when two of the points are equal, and is always right for points on a grid fine enough for the type (multiples of a power of two by at most M with 8M^2 <= 2^digits). convex_hull of any points never reads outside the array or fails its assertion, and returns points of the input, the lexicographically smallest first, that turn according to the test; it is exactly the convex hull when any three different points meet the bound, or on a grid. Under the same conditions within(point, triangle), winding_number and within(point, simple polygon) give the exact verdict. area of a polygon with n vertices differs from the exact one by at most (1+u)^(n+2)-1 times the sum of the absolute values of its terms, has the right sign when it is larger than that, and is exact on a grid. Without the bound the results can be wrong.", "quantifier": "For all lists of points, polygons, roundings with relative error below 1, and numbers of binary digits.", "why_tests_cant": "A test compares with a few inputs where rounding errors happen not to matter or where the error is known; which inputs are safe, and that no input makes the hull read outside its array, is a statement about all of them.", "anchors": ["include/actl/geometry/algorithm/orientation/point_point.hpp", "include/actl/geometry/algorithm/convex_hull/andrew_monotone_chain.hpp", "include/actl/geometry/algorithm/within/triangle.hpp", "include/actl/geometry/algorithm/polygon/winding_number.hpp", "include/actl/geometry/algorithm/area/simple_polygon.hpp"]}
{"id": "C126", "title": "Sorting by angle in floating point", "statement": "sort_by_angle of points of a floating point type, called without an origin, passes a strict weak order to std::sort and returns the points sorted by their exact angle in [0, 2pi), the origin first, whenever any two of the points are either on a line through the origin or make with it a triangle with twice the area larger than u times the sum of the two products it is the difference of (u the relative error of one operation); points with coordinates that are multiples of one number by at most M with 2uM^2 < 1 always are. With a rounding that keeps the order of numbers, the comparison never takes the larger of two angles for the smaller one, for any points. Directions that are the same are always taken for the same. Without the condition the comparison need not be a strict weak order, and std::sort has undefined behaviour.", "quantifier": "For all lists of points, element types and ways to get points from them, roundings, and standard library algorithms that meet their specification.", "why_tests_cant": "Whether a comparison is a strict weak order depends on all triples of points; inputs where rounding breaks it are rare and give undefined behaviour that need not show.", "anchors": ["include/actl/geometry/algorithm/point/sort_by_angle.hpp", "include/actl/geometry/algorithm/orientation/point_point.hpp"]}
{"id": "C127", "title": "Comparisons of numbers of the built-in types", "statement": "is_less, is_equal, is_greater, is_less_or_equal, is_greater_or_equal, is_not_equal, compare3way, sgn and max agree with the numbers the arguments stand for (infinities included) whenever the common type of the two arguments has both values; exactly one of less, equal and greater holds unless an argument is NaN. abs is the absolute value, except for the lowest number of a signed type. With absolute_error(eps), integers of signed types, eps as well, are compared exactly where the difference does not overflow; for floating point numbers exactly one of less, equal and greater holds, less implies that the difference is larger than eps and is implied by a difference larger than eps by more than one rounding, numbers at most eps apart are equal, and less is transitive.", "quantifier": "all values of all integer types of up to 64 bits and all floating point types (finite, infinities, NaN), both arguments of the same or of different types, any rounding to nearest", "why_tests_cant": "the values where conversions, rounding, overflow or NaN change the answer are few among 2^128 pairs and differ for every pair of types", "anchors": ["include/actl/numeric/comparison/ordering.hpp", "include/actl/numeric/comparison/equality.hpp", "include/actl/numeric/comparison/compare3way.hpp", "include/actl/numeric/comparison/sgn.hpp", "include/actl/numeric/comparison/abs.hpp", "include/actl/numeric/comparison/min_max.hpp", "include/actl/numeric/comparison/absolute_error.hpp", "include/actl/numeric/arithmetic/additive/subtract.hpp"]}
{"id": "C128", "title": "Lines in floating point", "statement": "On lines of a floating point type, intersect of two lines, rays or segments in the plane outputs a point exactly when they have a common point, provided their areas are larger than the error of the arithmetic (far from parallel, and the common point far from the ends); the computed parameter and coordinates differ from the exact ones by at most a stated bound. On lines through points of a grid on which areas are exact for the type, the decision is always right, the common part of parallel lines is exact, and a coordinate x of the common point differs by at most u|x| + ((1+u)^3-(1+u))|x-a|, a being the coordinate of the starting point; crosses and within(point, line) are exact. distance of two points in n dimensions has a square within n+5 roundings of the exact one, and is zero exactly for equal points.", "quantifier": "all lines, rays and segments of all six kinds in the plane, all points in n dimensions, every rounding with relative error u < 1, every grid", "why_tests_cant": "floating point errors show up only for rare combinations of coordinates, and a bound on them has to hold for all of them", "anchors": ["include/actl/geometry/algorithm/intersect/line_line_2d.hpp", "include/actl/geometry/detail/common_line.hpp", "include/actl/geometry/algorithm/crosses/line_line_2d.hpp", "include/actl/geometry/algorithm/within/line.hpp", "include/actl/geometry/algorithm/distance/point_point.hpp", "include/actl/geometry/line.hpp"]}
{"id": "C129", "title": "Closest and furthest points in floating point", "statement": "On points of a floating point type, nearest(points) of two or more points returns two of the given points at different positions and leaves the points a permutation of themselves; no pair of the points is closer than the returned one by more than the rounding of the computed distances (relative factor ((1+u)/(1-u))^7 of the squares, u the relative error of one operation), and two equal points are returned if there are any. With coordinates that are multiples of a number and small compared with the precision the returned pair is exactly a closest one. max_distance of a strictly convex polygon whose coordinates are such multiples is the distance of two vertices, and the greatest one, up to the same rounding.", "quantifier": "all lists of points (all strictly convex polygons), all roundings with relative error at most u < 1 and all correct sort implementations", "why_tests_cant": "the pruning by x and y compares rounded differences with rounded distances, so a pair could be pruned wrongly only for particular bit patterns", "anchors": ["include/actl/geometry/algorithm/nearest/multi_point.hpp", "include/actl/geometry/algorithm/polygon/antipodal_vertices.hpp", "include/actl/geometry/algorithm/polygon/max_distance.hpp", "include/actl/geometry/algorithm/distance/point_point.hpp"]}
{"id": "C130", "title": "Searches in polygons with floating point coordinates", "statement": "On points of a floating point type: within(point, monotone_polygon) and within(point, convex_monotone_polygon) read no vertex out of range and extreme_vertex ends with one of the vertices, whatever the roundings. If the coordinates are multiples of a number small enough that the areas are exact, or if the point is well apart from every line through two vertices compared with the error of the arithmetic, both searches classify the point exactly (inside iff strictly left of all edges of a strictly convex polygon, border iff on an edge, outside otherwise; by the winding number in a simple monotone polygon). On the grid extreme_vertex gives the vertex whose line in the direction has the polygon on its left, and tangents of a point outside writes the two touching vertices.", "quantifier": "all points, all strictly convex and all simple monotone polygons, all roundings with relative error at most u < 1 (all functions for the safety claims), all output positions", "why_tests_cant": "wrong results need nearly collinear points with particular bit patterns; the claims are about every point and polygon", "anchors": ["include/actl/geometry/algorithm/within/monotone_polygon.hpp", "include/actl/geometry/algorithm/within/convex_monotone_polygon.hpp", "include/actl/geometry/algorithm/polygon/extreme_vertex.hpp", "include/actl/geometry/algorithm/tangents/point_convex_polygon.hpp", "include/actl/geometry/algorithm/polygon/antipodal_vertices.hpp"]}
{"id": "C131", "title": "Lines with integer coordinates do not overflow in a box", "statement": "For lines, rays and segments of all six kinds through points with signed integer coordinates inside any axis-parallel square of side D, with D representable in the coordinate type and 2*D*D in the type of products: within(point, line), intersect and crosses perform no signed overflow; within and crosses are exactly right, parallel lines give exactly their common part with integer coordinates, and other lines output a point exactly when they have a common point, each coordinate x of which differs by at most u|x| + (1+u)((1+u)(1+e)-1)|x-a| for a rounding error u of the result type and a relative error e of the ratio. area and orientation of a point and a line need only D*D. The bound is exact: in every square of a side D that does not meet it the two diagonals overflow in either order.", "quantifier": "for all widths of coordinates and products, all squares, all lines through points in them, all kinds of ends, every rounding and every ratio", "why_tests_cant": "Overflow and wrong decisions depend on the positions of four points and on the kinds of the ends; tests try a few small segments and never reach the bound, where in one order only the negation of an area overflows.", "anchors": ["include/actl/geometry/algorithm/intersect/line_line_2d.hpp", "include/actl/geometry/algorithm/crosses/line_line_2d.hpp", "include/actl/geometry/detail/common_line.hpp", "include/actl/geometry/algorithm/within/line.hpp", "include/actl/geometry/detail/between_endpoints.hpp", "include/actl/geometry/algorithm/orientation/point_line.hpp"]}
{"id": "C132", "title": "Projections, nearest points and distances with floating point coordinates", "statement": "On points of a floating point type whose operations have the relative error u: project(point, line), project(point, plane), reflect across either, nearest(point, line/ray/segment), distance(point, plane), and in the plane distance(point, line/ray/segment) always give an answer if the vector or normal is not null and the error of n + 1 (n + 2 for lengths) roundings is below 1. The computed parameter, every coordinate and the distance differ from those of the foot of the perpendicular, its mirror point, the nearest point and the distance by no more than explicit bounds. These also hold where a rounded product chooses the wrong case near an end of a ray or segment. The point with the computed parameter is within a fixed multiple (below 10^-14 for double in the plane) of the distance of the point from the start of the line. A point of the line need not be its own projection or mirror image.", "quantifier": "all points, lines, rays, segments and planes in every dimension (distance from a line: the plane), all roundings with relative error at most u, no overflow or underflow", "why_tests_cant": "the bounds are about every rounding and all coordinates; the wrong cases occur only within some units in the last place of the ends", "anchors": ["include/actl/geometry/algorithm/project/point_line.hpp", "include/actl/geometry/algorithm/project/point_plane.hpp", "include/actl/geometry/algorithm/reflect/point.hpp", "include/actl/geometry/algorithm/nearest/point_line.hpp", "include/actl/geometry/algorithm/distance/point_line.hpp", "include/actl/geometry/algorithm/distance/point_plane.hpp"]}
{"id": "C133", "title": "Intersections of lines with polygons in floating point, and as points", "statement": "On points of a floating point type whose coordinates are multiples of a number small enough that areas are exact, intersect of a line, ray or segment with a strictly convex polygon writes the parameters where the line enters and leaves the polygon, and with a simple counter-clockwise polygon the ends of the parts of the line inside of it, each rounded once; which of them belong to the ray or segment is decided exactly. With the point-valued policy every point assigned to the output is the computed point of such a parameter, within explicit bounds of the exact one, and all of them are assigned to one position of the output. With exact arithmetic the points are the exact ones. The search in a convex polygon ends if the two extreme vertices found differ; with double there is a strictly convex triangle and a line for which they are the same and the search never ends.", "quantifier": "all polygons, lines, rays, segments, outputs and roundings", "why_tests_cant": "the parameters are rounded quotients of large exact areas; the endless loop needs a vertex one unit in the last place beside the line", "anchors": ["include/actl/geometry/algorithm/intersect/line_convex_polygon.hpp", "include/actl/geometry/algorithm/intersect/line_simple_polygon.hpp", "include/actl/geometry/algorithm/intersect/intersect.hpp", "include/actl/geometry/detail/scalar_to_point_adaptor.hpp"]}
{"id": "C134", "title": "Intersections of lines with polygons, with integer coordinates", "statement": "For two different integer points, a line, ray or segment through them and a polygon of integer points, all in a square of side D, with D in the type of the coordinates and 2*D*D in the type of products: intersect of the line with a strictly convex polygon, and with a simple counter-clockwise polygon, overflows nowhere and ends. It writes the parameters where the line enters and leaves the polygon with the relative error of one quotient; which of them belong to the ray or segment is decided exactly. With the point-valued policy the points assigned to the output, all to one position, are within an explicit bound of the exact ones. The bound on D is exact: in every square that does not meet it there are a line and a triangle for which both functions overflow.", "quantifier": "all integer widths, squares, polygons, lines, rays, segments, outputs, and all functions ratio with a relative error", "why_tests_cant": "overflow needs coordinates near the bound and one particular edge; the parameters are quotients of arbitrary integers", "anchors": ["include/actl/geometry/algorithm/intersect/line_convex_polygon.hpp", "include/actl/geometry/algorithm/intersect/line_simple_polygon.hpp", "include/actl/geometry/algorithm/intersect/intersect.hpp", "include/actl/geometry/algorithm/intersect/line_line_2d.hpp"]}
{"id": "C135", "title": "Closest and furthest points with integer coordinates", "statement": "Points of integers in a box whose side fits the type of the coordinates and the double square of whose side fits the type of the products: nearest(points) makes no operation that overflows, reorders the points without losing any and returns two of them at different positions such that the computed distance of no other two is less. If the square root is rounded to a floating point type that the box is small for, no other two points are closer; in general none is closer by more than the rounding of two roots. max_distance of a strictly convex polygon is the root of the greatest squared distance of two vertices. A greater box makes both overflow.", "quantifier": "all lists of at least two points and all strictly convex polygons with integer coordinates in a box, all widths of the types, all roots that are monotone and not less than the number at its square", "why_tests_cant": "Overflow and equal rounded roots depend on the magnitudes of the coordinates; tests use small ones.", "anchors": ["include/actl/geometry/algorithm/nearest/multi_point.hpp", "include/actl/geometry/algorithm/polygon/max_distance.hpp", "include/actl/geometry/algorithm/distance/point_point.hpp", "include/actl/geometry/algorithm/point/norm.hpp"]}
{"id": "C136", "title": "A set of points and its convex hull", "statement": "For points that are not all on one line: convex_hull(points) contains exactly the points that lie between the given ones; it is the only strictly convex counter-clockwise polygon with that property that starts with the lexicographically least point; it depends on the set of points only (not on order and repetitions) and is its own convex hull (both also for collinear points). Questions about the set asked through the hull get the right answers: within(p, hull) for the hull as a simple, monotone or convex_monotone polygon is inside iff in every direction some point is further than p, border iff p lies between the points and in some direction none is further, outside otherwise; max_distance(hull) is the greatest distance of two points; extreme_vertex(hull, d) and tangent_vertices(p, hull) have all points on one side; intersect(line, hull) gives the first and last parameter for which the line lies between the points. The same with integer coordinates in a box of side D with D < 2^(w-1), D*D < 2^(W-1) (2*D*D for distances and lines). For collinear points the answers are wrong.", "quantifier": "all finite lists of points over any ordered field, all query points, directions, lines; all integer widths and boxes", "why_tests_cant": "Uniqueness and independence of order are statements about all lists and all polygons; the composition of algorithms is correct only if the invariants one establishes are the ones the next needs.", "anchors": ["include/actl/geometry/algorithm/convex_hull/andrew_monotone_chain.hpp", "include/actl/geometry/algorithm/within/convex_monotone_polygon.hpp", "include/actl/geometry/algorithm/polygon/extreme_vertex.hpp"]}
{"id": "C137", "title": "Assigned edge and vertex bundles are what is read later", "statement": "Let a program add edges to an initially edgeless graph with try_add_edge and assign new bundles (graph[e] = x, or put through the edge property) to edges returned earlier, in any order. Then the graph and all answers of try_add_edge are exactly those of the program that adds the same edges, each with the bundle last assigned to it: an assignment changes the bundle of that edge only, moves nothing, and reading an edge, returned or enumerated, from either end, gives the value last assigned. Assigning to a vertex changes the value of that vertex only and keeps the vertex container consistent unless the value is the key by which the container compares.", "quantifier": "All graphs built by try_add_edge and bundle assignments: edge lists (directed and undirected) and adjacency lists of each direction, with and without edge container; all container kinds; all bundle types and values; all interleavings.", "why_tests_cant": "The tests assign to a couple of bundles of one small graph right after adding its edges and read them back by the same handle; they do not interleave further insertions, read from the other end of an undirected edge, or assign to vertices stored in sets.", "anchors": ["include/actl/graph/edge_list.hpp", "include/actl/graph/adjacency_list.hpp", "include/actl/graph/vertex_list.hpp", "include/actl/graph/detail/mimic_pair.hpp", "include/actl/graph/detail/adj_list_vertices.hpp", "include/actl/map/member_map.hpp", "include/actl/map/composite_map.hpp", "include/actl/container/container_id.hpp"]}
{"id": "C138", "title": "Adjacency lists with an edge container under any mixture of insertions", "statement": "Starting from an empty adjacency_list with an edge container, let try_add_vertex and try_add_edge be called in any order. Every call whose ends are vertices (or, for numbered vertices, non-negative numbers below the greatest int) succeeds. Every vertex returned stays valid and keeps its value; a vertex is new unless the vertex container is unique and has an equal value; numbered vertices are 0..n-1 with the next number for a new one. Every edge returned stays valid: the handles have different ids, graph[e] gives the bundle of the call, edge_count() is the number of edges added, the out-edges of a vertex are exactly the handles of the edges that start there (or end there, if undirected), in-edges correspond to them, and edges() yields each edge once. Searches (depth-first, breadth-first, components, topological sort) answer according to the calls. remove_vertex removes a vertex with its edges.", "quantifier": "all directions, all kinds of out-edge and vertex containers, edge containers that are sequences, all selectors of what edges store (edge_property, one_vertex, two_vertices), all sequences of calls, all iteration orders of hashed containers", "why_tests_cant": "The order of calls, the kinds of three containers and what is stored of the ends multiply; stale vertex or edge ids only show after particular interleavings of growth and insertion.", "anchors": ["include/actl/graph/adjacency_list.hpp", "include/actl/graph/edge_list.hpp", "include/actl/graph/vertex_list.hpp", "include/actl/graph/detail/adj_list_traits.hpp", "include/actl/graph/detail/adj_list_vertices.hpp", "include/actl/graph/detail/edge_list_traits.hpp"]}
{"id": "C139", "title": "Line objects keep the points they were made from", "statement": "The kinds of lines are exactly six bytes, one for each pair of ends whose second value does not exceed the first, and begin() and end() of the kind give the ends back. Two points of any integer types make a line of their common type that starts at the first point and whose end() is the second one, even when the stored vector has wrapped around; making it fails only by an assertion about the kind or by signed overflow of a difference, and the line is degenerate exactly when the points are equal. When the type has the differences of the coordinates, make_line, make_ray, make_segment and make_any_line have exactly the points between the ends asked for, for all nine pairs of kinds of ends and with the ends in either order; for a segment this condition is also necessary. A line is converted or assigned to another type of lines exactly when that type has its kind, it keeps its points when the type has its coordinates, and any program of constructions and assignments whose values the types have leaves every variable with the points of the line the program means it to hold.", "quantifier": "all integer types, dimensions, points, kinds of ends, and all programs of constructions, conversions and assignments between variables of types of lines", "why_tests_cant": "Tests use int or double coordinates of small size and check particular lines; wrapped vectors, assertions about kinds after chains of conversions and the two orders of the ends need all types, kinds and programs.", "anchors": ["include/actl/geometry/line.hpp", "include/actl/geometry/point.hpp"]}
{"id": "C140", "title": "Adjacency lists with an edge container: insertions mixed with assignments to bundles", "statement": "Starting from an empty adjacency_list with an edge container, let try_add_vertex, try_add_edge, graph[e] = x through a handle with the id of an edge returned before, and graph[v] = x (where the vertex container does not compare bundles) be executed in any order. Every step succeeds. Afterwards a vertex returned as new has the bundle last assigned to it, or that of the call if there was none, and a numbered vertex that only an edge brought into being has the one last assigned or the value-initialized one. Every handle returned has the ends of its call and through graph[e] the bundle last assigned to its id, or that of the call. The vertices, the answers of all insertions, edge_count(), out-edges, in-edges and edges() are those of the insertions alone: assignments change no other bundle and no structure. Depth-first and breadth-first searches discover and measure exactly the paths along the edges inserted.", "quantifier": "for all programs of insertions and assignments, all kinds of containers of out-edges and vertices, vectors and lists of edges, all three directions, with and without the ends stored in the edges, all types of bundles", "why_tests_cant": "A test fixes one interleaving; the claim is that no assignment, at any point of any history and however the containers grow afterwards, is lost, lands at another element, or changes a later answer.", "anchors": ["include/actl/graph/adjacency_list.hpp", "include/actl/graph/edge_list.hpp", "include/actl/graph/vertex_list.hpp", "include/actl/graph/detail/adj_list_vertices.hpp", "include/actl/container/container_id.hpp"]}
{"id": "C141", "title": "find_edge and the numbers of out-edges after insertions mixed with assignments", "statement": "After any program of try_add_vertex, try_add_edge, graph[e] = x and graph[v] = x on an adjacency_list with an edge container: if some call added an edge that joins u to v (in either direction for an undirected graph), find_edge(u, v) returns an edge with source u and target v whose id is that of the handle such a call returned and whose bundle is the one last assigned to it, or that of the call; with out-edges in a vector or list it is the edge of the earliest such call, and in a set the edge of the only call that added one. If no call did, find_edge(u, v) is edge{} where the out-edges do not keep the target, and undefined where they do. The numbers of out-edges of all the vertices add up to edge_count() in a directed or bidirectional graph, and in an undirected one to edge_count() plus the number of edges added that are not loops.", "quantifier": "for all programs of insertions and assignments, all vertices u and v, all kinds of containers of out-edges and vertices, vectors and lists of edges, all three directions, with and without the ends stored in the edges", "why_tests_cant": "Which of several parallel edges is found depends on the kind of container, on the direction the edge was added in and on the whole history; tests see a handful of graphs.", "anchors": ["include/actl/graph/adjacency_list.hpp", "include/actl/graph/edge_list.hpp", "include/actl/container/container_id.hpp"]}
{"id": "C142", "title": "Components, topological order and bridges after insertions mixed with assignments", "statement": "After any program of try_add_vertex, try_add_edge, graph[e] = x and graph[v] = x on an adjacency_list with an edge container: on an undirected graph find_bridges ends and outputs, each once and in one direction, exactly the edges returned by try_add_edge without which there is no path between their ends (parallel edges count where the container of out-edges allows them); its component map equates two vertices exactly when they stay connected whichever single edge is left out. connected_component_recorder equates exactly the vertices joined by a path along the edges added and numbers the components 0 .. count - 1. If the edges have no cycle, topological_sort outputs every vertex once, the target of every edge before its source.", "quantifier": "for all programs of insertions and assignments, all initial contents of the maps, all kinds of containers of out-edges and vertices, vectors and lists of edges, with and without the ends stored in the edges", "why_tests_cant": "The answer depends on the whole history of the container and on the order in which the search meets edges; tests fix a few small graphs.", "anchors": ["include/actl/graph/connectivity/bridges.hpp", "include/actl/graph/connectivity/connected_components.hpp", "include/actl/graph/traversal/order.hpp", "include/actl/graph/adjacency_list.hpp"]}
{"id": "C143", "title": "Points, spheres, planes and lines written as text and bytes", "statement": "Written through 'spaced{space} >>= text', a point, sphere, plane, line, ray, segment or any_line is the sequence of its numbers with exactly one separator between neighbours and none elsewhere; reading such a text through 'skipws >>= text' or the same format into any object of the type gives an equal object. In the binary format a point, sphere, plane, line, ray or segment is the bytes of its numbers in order and nothing else, and reading them gives an equal object and leaves what follows.", "quantifier": "for all dimensions, all coordinates of every integer type that can be written, all bases 2-36 and number flags, all separators that cannot continue a number, all previous contents of the object read into", "why_tests_cant": "The tests write no object of geometry; whether a separator is written behind the last coordinate depends on an empty base class that no value shows.", "anchors": ["include/actl/geometry/point.hpp", "include/actl/geometry/sphere.hpp", "include/actl/geometry/plane.hpp", "include/actl/geometry/line.hpp", "include/actl/utility/introspection.hpp", "include/actl/io/argument/empty.hpp", "include/actl/io/format/text/decorator/spaced.hpp"]}
{"id": "C144", "title": "Programs over filtered ranges", "statement": "The iterators of a filtered range move like indices of the list of the elements that satisfy the predicate: any program of ++ and -- that stays in this list reaches the element of the right index, and equality is equality of indices. empty, front and back are those of this list. A filtered range of a filtered range has the elements that satisfy both predicates. A loop that assigns to the elements changes exactly those that satisfied the predicate, each once, forwards and (with begin() taken before the loop) backwards. The last part fails if begin() is taken anew in every iteration: when the new values do not satisfy the predicate, the loop runs over the beginning.", "quantifier": "all ranges, predicates, programs of moves and assigned functions", "why_tests_cant": "Unbounded ranges and programs, arbitrary predicates, elements that change during the loop.", "anchors": ["include/actl/range/filtered_range.hpp", "include/actl/range/iterator/interface/iterator_adaptor.hpp", "include/actl/range/interface/basic_range_interface.hpp", "include/actl/range/interface/bidirectional_range_interface.hpp"]}
{"id": "C145", "title": "Copying a filtered range, also in place", "statement": "ranges::copy of filter_range(source, pred) to a position writes the elements that satisfy pred there in order, leaves all others as they were and returns the position behind the last copy. To another vector it is defined exactly if they fit. It holds also if the target is a position of the vector that is filtered, not behind the first element that satisfies pred, although the predicate is evaluated on elements while the vector changes; so copy(v.begin(), filter_range(v, pred)) followed by erasing from the returned position leaves exactly the elements that satisfy pred. It fails for the position next to the first such element: the copy then runs over the end of the vector.", "quantifier": "all vectors, predicates and positions", "why_tests_cant": "Unbounded vectors with the source overlapping the target, arbitrary predicates; tests copy to separate vectors.", "anchors": ["include/actl/range/operation/copy.hpp", "include/actl/range/filtered_range.hpp"]}
{"id": "C146", "title": "Writing with unit_flush through a buffer", "statement": "With the format unit_flush every unit is followed by a flush. Units written this way to a buffered device with an empty buffer have arrived completely and exactly once at the underlying device after each of them, with the buffer empty, if and only if inside of no unit a call with a span ends on a boundary of the buffer while characters of earlier calls of the same unit are waiting. In particular units of one call (numbers, strings, characters, separators) and units shorter than the buffer always arrive; every structured value written as text or binary with unit_flush at the end of the format arrives exactly, for every size of the buffer, before the call returns. A unit of two spans that together end on a boundary arrives with its first part twice.", "quantifier": "all sequences of units, all calls inside of them, all buffer sizes and contents, all structured values and text configurations", "why_tests_cant": "the defect of the buffer depends on the size of the buffer and on where each span ends; a test sees one size and a few texts", "anchors": ["include/actl/io/format/utility/unit_flush.hpp:15-22", "include/actl/io/utility/flush.hpp:14-19", "include/actl/io/device/wrapper/buffered.hpp:129-170", "include/actl/io/core/batch.hpp:22-30"]}
{"id": "C147", "title": "Writing to a device that fails", "statement": "Writing structured values as text or binary to a device that may take fewer characters than it is given, at any call and any number of times, and says so: the call of write ends, the device has received a beginning of the text (the bytes) of the value and nothing else, and success is reported exactly if it has received all of it; nothing is sent after the first failure, even if the device would take characters again. The same holds of several arguments of one call. Reading back the bytes of a binary value whose writing failed fails. Through io::buffered a failure of the device behind the buffer is never reported.", "quantifier": "all devices that tell the truth about the number of characters taken, all states of them, all structured values and configurations", "why_tests_cant": "failures in the middle of a value depend on the call at which the device fails, and tests use devices that never fail", "anchors": ["include/actl/io/argument/byte.hpp:18-21", "include/actl/io/argument/byte_span.hpp:14-19", "include/actl/io/core/batch.hpp:47-51", "include/actl/io/argument/range.hpp:39-49", "include/actl/io/argument/tuple.hpp:17-35", "include/actl/io/io.hpp:35-38"]}
{"id": "C148", "title": "A buffered device over a device that fails", "statement": "A buffered device over a device that may take fewer characters than it is given sends the same chunks as over one that never fails, and of every chunk what the device took arrives; if the device never fails, all characters arrive once and in order exactly if no span ends on a boundary of the buffer while earlier characters wait. The results of the device are ignored: writing a structured value reports success whatever the device does, and a device that refuses the first chunk and then recovers receives a long string without its first characters.", "quantifier": "all sequences of calls, buffers and devices that tell the truth about the number of characters taken", "why_tests_cant": "loss depends on the chunk during which the device fails; tests use devices that never fail", "anchors": ["include/actl/io/device/wrapper/buffered.hpp:109-175"]}
{"id": "C149", "title": "What was read was in the input", "statement": "Let a value built from integers, booleans, characters, strings, tuples, arrays and containers be read from text successfully, whatever the text is, with whitespace skipped or with separators checked. Then the unread characters are an end of the input, and at least as many characters were consumed as the value has numbers (sizes of containers included), booleans, characters, and characters in its strings. So a container whose elements cannot be empty gets fewer elements than the input has characters, and a loop that reads such values until reading fails ends. Strings are the exception: with whitespace skipped a string is read successfully at the end of the input, so a loop reading strings never ends.", "quantifier": "all types, all configurations, all inputs (malformed ones included), all earlier contents of the target", "why_tests_cant": "Malformed inputs and nesting of types are unbounded; a test that loops can only show that it ended once.", "anchors": ["include/actl/io/core/parser_executor.hpp", "include/actl/io/format/text/parser/integral.hpp", "include/actl/io/format/text/parser/boolean.hpp", "include/actl/io/argument/byte.hpp", "include/actl/io/utility/till.hpp"]}
{"id": "C150", "title": "Binary input is either an encoding or truncated", "statement": "Reading a value built from integers, tuples, arrays and containers in the binary format succeeds with the value v and leaves the bytes r unread exactly if the input is the encoding of v followed by r, whatever the object contained before (containers that only grow being empty). It fails exactly if the input is a proper beginning of the encoding of some value; no other input is malformed, and after a failure nothing is left unread. An object without containers then has the bytes of the input as its first bytes and is unchanged otherwise. The first two statements hold from every kind of device and for a buffer of any capacity.", "quantifier": "all types, all byte sequences, all earlier contents, all capacities", "why_tests_cant": "All byte sequences are inputs; round trips only show that encodings are accepted, not that nothing else is and that the consumed bytes are those of the result.", "anchors": ["include/actl/io/argument/byte_span.hpp:20-24", "include/actl/io/argument/range.hpp:51-86", "include/actl/io/argument/tuple.hpp:37-41", "include/actl/io/format/binary/binary.hpp"]}
{"id": "C151", "title": "Sets and maps read from any input are valid", "statement": "Whatever the bytes and whether or not reading in the binary format succeeds, sets, multisets, maps and multimaps read into empty ones, nested in pairs, vectors and sets, are valid afterwards: sorted by their comparison, without equivalent elements if they are unique. The same holds for the text formats and any text, also for sets and maps that were not empty. A set of numbers, tuples or containers is read successfully in the binary format exactly from a number of elements followed by that many elements in any order and with any repetitions; it then has an equivalent of each and nothing else, and a multiset has exactly these elements.", "quantifier": "all byte sequences, all strict comparisons, all types", "why_tests_cant": "Byte sequences that no write produced (unsorted, repeated, truncated elements) are unbounded in number.", "anchors": ["include/actl/io/argument/range.hpp:51-86", "include/actl/container/functions.hpp:20-25"]}
{"id": "C152", "title": "Searches of one undirected graph agree with each other", "statement": "Run find_bridges with find_two_edge_connected_components, the connected component recorder and find_articulation_points on one undirected graph. An edge is among the bridges output, in one direction or the other, just if its two ends get different two-edge-connected component numbers. Vertices with the same two-edge-connected component number have the same connected component number; if no bridge is output, the converse holds too. The ends of every edge have the same connected component number. An end of a bridge output that has a neighbour besides itself and the other end is marked as an articulation point.", "quantifier": "every finite undirected graph with loops and parallel edges, all orders of vertices and edges, any initial contents of the maps", "why_tests_cant": "relates three separate searches on unbounded graphs; tests check each on its own, against stored answers", "anchors": ["include/actl/graph/connectivity/bridges.hpp: bridge_finder, find_bridges", "include/actl/graph/connectivity/connected_components.hpp: connected_component_recorder", "include/actl/graph/connectivity/articulation_points.hpp: articulation_point_finder"]}
{"id": "C153", "title": "Topological sort of graphs that may have cycles", "statement": "topological_sort ends on every directed graph and outputs every vertex once. Every edge goes from a vertex output later to one output earlier just if the graph has no cycle, so checking the output decides whether there is one. A vertex output last of those mutually reachable with it is output after everything reachable from it, and whatever reaches the vertex output last is reachable from it. If the output is in order, find_strong_components gives all vertices different numbers.", "quantifier": "every finite directed graph, with loops, parallel edges and cycles, all orders of vertices and edges, any initial contents of the maps", "why_tests_cant": "unbounded graphs; what the order says about cycles depends on the interplay of all finishing times", "anchors": ["include/actl/graph/traversal/order.hpp:87-94: topological_sort", "include/actl/graph/traversal/depth_first_search.hpp", "include/actl/graph/connectivity/tarjan_strong_components.hpp: find_strong_components"]}
{"id": "C154", "title": "Every bridge output accounts for one more two-edge-connected component", "statement": "Run find_bridges_and_components and the connected component recorder on one undirected graph: the two-edge-connected component numbers used are exactly 0, .., n-1 where n is the count of connected components plus the number of bridges output. So a bridge is neither missed nor output twice, and the numbers of the two searches fit.", "quantifier": "every finite undirected graph with loops and parallel edges, all orders of vertices and edges, any initial contents of the maps", "why_tests_cant": "counts over unbounded graphs; relates the results of two separate searches", "anchors": ["include/actl/graph/connectivity/bridges.hpp:113-134: find_bridges_and_components", "include/actl/graph/connectivity/connected_components.hpp: connected_component_recorder", "include/actl/graph/connectivity/detail/component_stack.hpp:31-40"]}
{"id": "C155", "title": "Distances of breadth-first searches from different sources fit together", "statement": "Record distances by a breadth-first search from every vertex of one graph; let d(s, v) be what the search from s records for v, -1 for none. Then d(s, v) >= -1, and it is 0 just if s = v; an edge leads from u to a vertex at most one farther from s; d(s, v) <= d(s, u) + d(u, v) when the right side exists; and a search from several sources records the least of the distances from the single sources. In an undirected graph d(s, v) = d(v, s), the distances of the ends of an edge differ by at most one, and there is a distance just if the connected component recorder gives s and v the same number. A depth-first search from s records a predecessor just where the breadth-first search from s records a distance, and following the predecessors back to s takes at least that many steps.", "quantifier": "every finite graph, all vertices, any lists of distinct sources, any initial contents of the maps", "why_tests_cant": "relates the results of searches from all vertices of unbounded graphs", "anchors": ["include/actl/graph/traversal/breadth_first_search.hpp", "include/actl/graph/traversal/distance_recorder.hpp:16-41", "include/actl/graph/connectivity/connected_components.hpp: connected_component_recorder", "include/actl/graph/traversal/predecessor_recorder.hpp"]}
{"id": "C156", "title": "Convex hulls of parts, of additional points and of moved points", "statement": "For points not all on one line, over an ordered field: sets of points that span the same region have the same convex_hull output, starting with the same vertex. The hull of the hulls of two parts is the hull of all points, and points added later need only the hull of those before. One more point leaves the hull as it is just if it lies between the points; otherwise it is a vertex of the new hull. Scaling by a positive number and moving the points scales and moves the output, vertex by vertex in the same order; a turn or any other affine map that keeps the orientation does so up to the vertex the output starts with. The parts must not lie on lines: for two parts each on a line the hull of the hulls is wrong.", "quantifier": "all finite lists of points, any order and repetition, any two parts, any point added, all positive scales and all translations", "why_tests_cant": "real coordinates and unbounded numbers of points; relates several runs", "anchors": ["include/actl/geometry/algorithm/convex_hull/andrew_monotone_chain.hpp"]}
{"id": "C157", "title": "Binary output tells values and sequences of values apart", "statement": "In binary format different values of one type have different bytes, and the bytes of one are never the beginning of those of another. Calls that write values of the same types one after the other produce the same bytes, or one a beginning of the other, only if all the values are the same. Any number of values of one type with nonempty encodings are told by the bytes, together with how many there are. The types must be known: values of different types can have the same bytes.", "quantifier": "all types made of arithmetic types, pairs, arrays, vectors and other sequences, all their values, all sequences of calls", "why_tests_cant": "pairs of values of unbounded size; an ambiguity would need two values that happen to collide", "anchors": ["include/actl/io/argument/byte_span.hpp:20-24", "include/actl/io/argument/range.hpp:51-86", "include/actl/io/argument/tuple.hpp:37-41", "include/actl/io/format/binary/binary.hpp"]}
{"id": "C158", "title": "Time stamps of a depth-first search classify the edges", "statement": "After a depth-first search of the whole graph with the in-out time stamper: the end of every edge is stamped before its start is left. The graph has no cycle just if no edge leads back to a vertex whose interval contains the stamp of the edge's start. In an undirected graph the intervals of the ends of every edge are nested, so no edge goes across.", "quantifier": "every finite graph with loops and parallel edges, all orders of vertices and edges, every edge", "why_tests_cant": "unbounded graphs; the equivalence with being acyclic quantifies over all cycles", "anchors": ["include/actl/graph/traversal/depth_first_search.hpp", "include/actl/graph/traversal/time_stamper.hpp: in_out_time_stamper"]}
{"id": "C159", "title": "Text tells values apart", "statement": "Write two values of the same type, built from integers, booleans, characters, strings, tuples, arrays and containers, through 'spaced{space} >>= text'. If in both of them no number but the very last piece is zero (sizes of containers included), no string has whitespace in it, and, where whitespace is skipped on reading, no character is whitespace and no string is empty unless only blank pieces follow, then equal texts mean equal values. Strings with the separator in them break this for every setting: the pairs (u + space + v, w) and (u, v + space + w) always have the same text.", "quantifier": "for all types nested to any depth, all pairs of values, all bases 2-36 and number flags, both boolean notations, all separators that cannot continue a number (beginning with whitespace for values with strings, nothing but whitespace where whitespace is skipped); the failure for all settings and all strings u, v, w", "why_tests_cant": "A claim about all pairs of values of unboundedly nested types; a test compares a few texts.", "anchors": ["include/actl/io/format/text/decorator/spaced.hpp", "include/actl/io/argument/tuple.hpp", "include/actl/io/argument/range.hpp", "include/actl/io/format/text/text.hpp"]}
{"id": "C160", "title": "The text of a value is unambiguous even where it is not read back", "statement": "Write two values of the same type, built from integers, booleans, characters, strings, tuples, arrays and containers, through 'spaced{space} >>= text', and let each text be followed by nothing or by a separator and anything. If the results are equal, the values are equal and so is what follows. Zeros, empty containers and characters of any kind are included (many of these values are not read back, C98); only strings with the first byte of the separator in them are excluded (C159).", "quantifier": "for all types nested to any depth, all pairs of values, all continuations, all bases 2-36 and number flags, both boolean notations, all separators whose first byte cannot continue a number or a base prefix", "why_tests_cant": "A claim about all pairs of values of unboundedly nested types and all continuations; collisions between texts are not found by comparing a few.", "anchors": ["include/actl/io/format/text/decorator/spaced.hpp", "include/actl/io/argument/tuple.hpp", "include/actl/io/argument/range.hpp", "include/actl/io/argument/size.hpp", "include/actl/io/format/text/text.hpp"]}
{"id": "C161", "title": "Texts of sets and maps are unambiguous", "statement": "Write two values of the same type, built from sets, maps, vectors, pairs and the types of C160, nested to any depth, through 'spaced{space, colon} >>= text', and let each text be followed by nothing or by a separator and anything. If the results are equal, the values are equal and so is what follows, provided that no string has the first byte of the separator or of the colon in it; maps, which are never read back from text (C118), are included. Strings with colons in them break this for every setting: the maps {u + colon + v: w} and {u: v + colon + w} always have the same text.", "quantifier": "for all types nested to any depth, all pairs of values, all continuations, all bases 2-36 and number flags, all separators and colons whose first byte cannot continue a number or a base prefix; the failure for all settings and all strings u, v, w", "why_tests_cant": "A claim about all pairs of values of unboundedly nested types and all continuations; collisions between texts are not found by comparing a few.", "anchors": ["include/actl/io/argument/range.hpp", "include/actl/io/argument/tuple.hpp", "include/actl/io/argument/size.hpp", "include/actl/io/format/text/decorator/spaced.hpp"]}
