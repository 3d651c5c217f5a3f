{
 "claims": [
  {
   "property": "C01",
   "status": "proved",
   "theorems": [
    "Actl.BinaryPow.binaryPow_eq_nfold",
    "Actl.BinaryPow.binaryPow_nat",
    "Actl.BinaryPow.binaryPow_bitVec"
   ],
   "note": "For every carrier with an associative multiplication and identity."
  },
  {
   "property": "C02",
   "status": "proved",
   "theorems": [
    "Actl.Modular.modAdd_correct",
    "Actl.Modular.modSub_correct",
    "Actl.Modular.modNeg_correct",
    "Actl.Modular.eval_correct"
   ],
   "note": "All word widths, all moduli up to and including 2^w."
  },
  {
   "property": "C03",
   "status": "proved",
   "theorems": [
    "Actl.Modular.modMul_correct",
    "Actl.Modular.modMulBinary_correct",
    "Actl.Modular.eval_correct"
   ],
   "note": "All code paths."
  },
  {
   "property": "C04",
   "status": "partial",
   "theorems": [
    "Actl.Modular.modDiv_correct",
    "Actl.Modular.modDiv_throws_iff",
    "Actl.Modular.modDiv_prime",
    "Actl.Modular.modDiv_ub"
   ],
   "note": "Proved except at one point where the code is wrong: modulus 2^w and divisor 0, for which modDiv_ub proves undefined behaviour instead of a throw."
  },
  {
   "property": "C05",
   "status": "proved",
   "theorems": [
    "Actl.Random.splitmix_bijective",
    "Actl.Random.hash64_injective",
    "Actl.Random.hashArith_injective",
    "Actl.Random.splitmix_streams_differ"
   ],
   "note": "All 2^64 states, all process seeds."
  },
  {
   "property": "C06",
   "status": "proved",
   "theorems": [
    "Actl.Random.xoro_bijective",
    "Actl.Random.xoro_states_stay_distinct",
    "Actl.Random.xoro_never_zero",
    "Actl.Random.xoro_default_never_zero",
    "Actl.Random.xoro_zero_outputs_zero",
    "Actl.Random.xoro_output"
   ],
   "note": "All states, any number of calls."
  },
  {
   "property": "C07",
   "status": "proved",
   "theorems": [
    "Actl.Literals.literal_correct",
    "Actl.Literals.denotes_unique"
   ],
   "note": "All character sequences; the value must fit the target type (braced conversion to a signed type rejects the rest)."
  },
  {
   "property": "C08",
   "status": "proved",
   "theorems": [
    "Actl.Bits.hasBit_iff",
    "Actl.Bits.hasBits_iff",
    "Actl.Bits.clearBits_bit",
    "Actl.Bits.clearBit_bit",
    "Actl.Bits.setBits_bit",
    "Actl.Bits.getf_setf",
    "Actl.Bits.getf_unsetf",
    "Actl.Bits.getf_setGroup",
    "Actl.Bits.flags_refine"
   ],
   "note": "All widths; flag word refines a set of flags under every manipulator sequence."
  },
  {
   "property": "C09",
   "status": "proved",
   "theorems": [
    "Actl.Compare.trichotomy",
    "Actl.Compare.isEqual_refl",
    "Actl.Compare.isEqual_symm",
    "Actl.Compare.isLess_irrefl",
    "Actl.Compare.isLess_trans",
    "Actl.Compare.isLess_sound",
    "Actl.Compare.isLessOrEqual_iff",
    "Actl.Compare.isGreaterOrEqual_iff",
    "Actl.Compare.compare3way_iff",
    "Actl.Compare.compare3way_antisymm",
    "Actl.Compare.compare3way_exact",
    "Actl.Compare.sgn_iff",
    "Actl.Compare.max_min_spec",
    "Actl.Compare.isEqual_not_trans",
    "Actl.Compare.unsigned_not_trichotomy",
    "Actl.Compare.unsigned_zero_tolerance",
    "Actl.Compare.unsigned_isEqual_not_symm"
   ],
   "note": "For signed exact arithmetic (any ordered commutative group). False for unsigned operands, where the subtraction wraps: proved by unsigned_not_trichotomy and unsigned_isEqual_not_symm."
  },
  {
   "property": "C10",
   "status": "proved",
   "theorems": [
    "Actl.IntText.encode_correct",
    "Actl.IntText.encode_injective"
   ],
   "note": "All widths 3..126, all bases, all flags."
  },
  {
   "property": "C11",
   "status": "proved",
   "theorems": [
    "Actl.IntText.encode_no_overrun",
    "Actl.IntText.encode_correct"
   ],
   "note": "A write outside the buffer is none in the model; encode is never none."
  },
  {
   "property": "C12",
   "status": "partial",
   "theorems": [
    "Actl.IntText.encode_readInt_partial",
    "Actl.IntText.encode_zero_readInt_fails"
   ],
   "note": "Proved for all non-zero values with any non-digit continuation and for zero at the end of input; zero followed by other text is proved not to read back (defect of the code)."
  },
  {
   "property": "C13",
   "status": "partial",
   "theorems": [
    "Actl.IntText.readInt_correct_partial",
    "Actl.IntText.readInt_lone_zero",
    "Actl.IntText.readInt_defined"
   ],
   "note": "Exact on every input except a lone zero digit followed by more input, where the code is proved to store a non-zero value (defect of the code)."
  },
  {
   "property": "C14",
   "status": "proved",
   "theorems": [
    "Actl.IntText.readInt_chunks",
    "Actl.Parser.readBool_chunks",
    "Actl.Parser.readConst_chunks"
   ],
   "note": "Integers, booleans and constant data, for all ways of cutting the input."
  },
  {
   "property": "C15",
   "status": "proved",
   "theorems": [
    "Actl.Parser.readBool_alpha",
    "Actl.Parser.readBool_numeric",
    "Actl.Parser.readBool_encode"
   ],
   "note": ""
  },
  {
   "property": "C16",
   "status": "proved",
   "theorems": [
    "Actl.Parser.readConst_correct",
    "Actl.Parser.readConst_success"
   ],
   "note": ""
  },
  {
   "property": "C17",
   "status": "partial",
   "theorems": [
    "Actl.Escaped.encodeString_decodes",
    "Actl.Escaped.encodeChar_decodes",
    "Actl.Escaped.encodeString_injective",
    "Actl.Escaped.writeEscaped_units",
    "Actl.Escaped.control_characters_raw"
   ],
   "note": "Injective, decodable, quotes and backslashes only inside escapes: proved. The part 'no raw control character' is false of the code: control characters other than NUL and \\a..\\r are written raw (control_characters_raw)."
  },
  {
   "property": "C18",
   "status": "proved",
   "theorems": [
    "Actl.Adjusted.writeAdjusted_correct",
    "Actl.Adjusted.repeatMemory_fits",
    "Actl.Adjusted.repeatMemory_ub"
   ],
   "note": "Padding on a full memory device divides by zero (repeatMemory_ub); when it fits the padding is right (repeatMemory_fits)."
  },
  {
   "property": "C19",
   "status": "partial",
   "theorems": [
    "Actl.Device.mem_run_partial",
    "Actl.Device.mem_writes",
    "Actl.Device.mem_io_partial",
    "Actl.Device.mem_read_past_ub",
    "Actl.Device.mem_write_past_ub",
    "Actl.Device.readWide_iff",
    "Actl.Device.readWide_fails"
   ],
   "note": "All mixed histories that do not transfer a span after overrunning the end by get. The remaining histories are wrong in the code: size_t wraps and memory beyond the span is accessed (mem_read_past_ub, mem_write_past_ub); wide characters are copied incompletely (readWide_fails)."
  },
  {
   "property": "C20",
   "status": "partial",
   "theorems": [
    "Actl.Device.str_run_partial",
    "Actl.Device.str_writes",
    "Actl.Device.str_read_past_ub"
   ],
   "note": "As C19: read after get at the end is wrong in the code (str_read_past_ub)."
  },
  {
   "property": "C21",
   "status": "partial",
   "theorems": [
    "Actl.Buffered.writer_correct_partial",
    "Actl.Buffered.fresh_writer_correct_partial",
    "Actl.Buffered.writer_iff",
    "Actl.Buffered.writer_duplicates"
   ],
   "note": "The claim is false of the code; writer_iff gives exactly the histories for which it holds; writer_duplicates shows the pending characters sent twice otherwise."
  },
  {
   "property": "C22",
   "status": "partial",
   "theorems": [
    "Actl.Buffered.reader_follows_partial",
    "Actl.Buffered.fresh_reader_fails",
    "Actl.Buffered.reader_back",
    "Actl.Buffered.reader_back_fails",
    "Actl.Buffered.drive_correct",
    "Actl.Buffered.readInt_buffered"
   ],
   "note": "All histories that begin with a read, moves in both directions; before the first read the code reports an exhausted device (fresh_reader_fails). A move back is either exact or refused by an assertion: it is possible inside the buffer (reader_back), and never just after a refill (reader_back_fails)."
  },
  {
   "property": "C23",
   "status": "proved",
   "theorems": [
    "Actl.Till.readTillGet_correct",
    "Actl.Till.readTillBuf_correct",
    "Actl.Till.readString_chunks",
    "Actl.Till.readString_file",
    "Actl.Till.readString_roundtrip",
    "Actl.Till.skip_correct",
    "Actl.Till.skip_cstr_overruns"
   ],
   "note": "Span and string, buffered and unbuffered. The unbuffered version consumes the terminator, the buffered one leaves it. Skipping with a string literal as the set overruns the end (skip_cstr_overruns)."
  },
  {
   "property": "C24",
   "status": "partial",
   "theorems": [
    "Actl.Binary.read_write_partial",
    "Actl.Binary.read_write_fresh",
    "Actl.Binary.read_seq_appends",
    "Actl.Binary.read_seq_fails",
    "Actl.Binary.read_truncated",
    "Actl.Binary.write_injective",
    "Actl.Binary.write_arith_length"
   ],
   "note": "Round trip proved for every value into a fresh target. Reading a container without random access into a non-empty target appends instead of replacing (read_seq_fails), so the full claim is false."
  },
  {
   "property": "C25",
   "status": "proved",
   "theorems": [
    "Actl.SplitTrim.split_remove",
    "Actl.SplitTrim.split_keep",
    "Actl.SplitTrim.split_parts"
   ],
   "note": ""
  },
  {
   "property": "C26",
   "status": "proved",
   "theorems": [
    "Actl.SplitTrim.trim_correct",
    "Actl.SplitTrim.trim_idempotent"
   ],
   "note": ""
  },
  {
   "property": "C27",
   "status": "proved",
   "theorems": [
    "Actl.Text.isDigit_iff",
    "Actl.Text.isLower_iff",
    "Actl.Text.isUpper_iff",
    "Actl.Text.isAlpha_iff",
    "Actl.Text.isAlphanumeric_iff",
    "Actl.Text.isSpace_iff",
    "Actl.Text.classes_disjoint"
   ],
   "note": "All 256 byte values."
  },
  {
   "property": "C28",
   "status": "proved",
   "theorems": [
    "Actl.Containers.twoStacks_fifo",
    "Actl.Containers.vecQueue_fifo",
    "Actl.Containers.vecQueue_keeps",
    "Actl.Containers.vecQueue_overdrawn_fails"
   ],
   "note": "Refinement of a FIFO list over every history. queue_using_stacks calls pop_back, which std::stack lacks; modelled for a Stack having it. vecQueue_overdrawn_fails shows what an empty queue popped with assertions off becomes (outside the claim)."
  },
  {
   "property": "C29",
   "status": "partial",
   "theorems": [
    "Actl.Containers.arrVec_vector",
    "Actl.Containers.arrVec_overflow",
    "Actl.Containers.arrObj_copy_ub"
   ],
   "note": "Refinement of a bounded vector over every history of one object. Copies are broken: the end iterator of a copy points into the original (arrObj_copy_ub)."
  },
  {
   "property": "C30",
   "status": "partial",
   "theorems": [
    "Actl.Tensor.index_bijection",
    "Actl.Tensor.size_and_order",
    "Actl.Tensor.equal_iff",
    "Actl.Tensor.dynamic_subscript_ub"
   ],
   "note": "Proved for static rank, and for dynamic rank except chained subscripts: for tensor<T> the subscript operator is undefined for every tensor and index (dynamic_subscript_ub)."
  },
  {
   "property": "C31",
   "status": "partial",
   "theorems": [
    "Actl.Tensor.nestedInit_partial",
    "Actl.Tensor.ofNested_partial",
    "Actl.Tensor.ofNested_fails",
    "Actl.Tensor.computeDims_correct"
   ],
   "note": "True when all dimensions but the last are equal (always for rank at most 2) or one is zero; otherwise construction is undefined behaviour because of wrong strides (ofNested_fails, every nested list of every rank)."
  },
  {
   "property": "C32",
   "status": "proved",
   "theorems": [
    "Actl.Containers.slots_bijective",
    "Actl.Containers.semiInit_correct",
    "Actl.Containers.semiAt_correct",
    "Actl.Containers.semiSet_correct",
    "Actl.Containers.semi_eq_iff"
   ],
   "note": ""
  },
  {
   "property": "C33",
   "status": "proved",
   "theorems": [
    "Actl.Maps.accounting_correct",
    "Actl.Maps.accounting_wraps"
   ],
   "note": "For every request history with at most 2^w different keys, w the width of the number type; beyond that numbers repeat (accounting_wraps)."
  },
  {
   "property": "C34",
   "status": "proved",
   "theorems": [
    "Actl.Maps.assoc_laws",
    "Actl.Maps.assoc_history",
    "Actl.Maps.assoc_range",
    "Actl.Maps.composite_put2",
    "Actl.Maps.composite_put1",
    "Actl.Maps.composite_invert",
    "Actl.Maps.composite_range1",
    "Actl.Maps.composite_range2",
    "Actl.Maps.seq_laws",
    "Actl.Maps.seq_range",
    "Actl.Maps.filtered_range_spec",
    "Actl.Maps.shift_roundtrip",
    "Actl.Maps.shift_roundtrip_unsigned",
    "Actl.Maps.shift_narrow_iff",
    "Actl.Maps.identity_roundtrip",
    "Actl.Maps.identity_same_width"
   ],
   "note": "Puts to different keys of a composition interfere exactly if the first map sends them to the same key (composite_put2)."
  },
  {
   "property": "C35",
   "status": "partial",
   "theorems": [
    "Actl.Ranges.irange_correct",
    "Actl.Ranges.irange_size",
    "Actl.Ranges.irange_size_ub",
    "Actl.Ranges.drange_signed",
    "Actl.Ranges.drange_unsigned",
    "Actl.Ranges.drange_unsigned_all_fails",
    "Actl.Ranges.drange_unsigned_size_fails",
    "Actl.Ranges.irangeStep_signed",
    "Actl.Ranges.irangeStep_empty",
    "Actl.Ranges.irangeStep_unsigned",
    "Actl.Ranges.irangeStep_unsigned_negative_fails"
   ],
   "note": "irange is right for every type; drange is undefined for the lowest signed last, empty for the whole unsigned range and its unsigned size() is wrong; irange with a step is characterised for signed types (exactly when undefined) and for unsigned types (right iff length is not 2^width; negative steps wrong)."
  },
  {
   "property": "C36",
   "status": "proved",
   "theorems": [
    "Actl.Ranges.cyclic_moves",
    "Actl.Ranges.cyclicInit_eq",
    "Actl.Ranges.cyclicDiff_eq",
    "Actl.Ranges.cyclic_never_less"
   ],
   "note": "Any sequence of moves by less than the size; difference of iterators; operator< is never true."
  },
  {
   "property": "C37",
   "status": "proved",
   "theorems": [
    "Actl.Ranges.filtered_forward",
    "Actl.Ranges.filtered_backward"
   ],
   "note": "Any range and predicate, both directions."
  },
  {
   "property": "C38",
   "status": "partial",
   "theorems": [
    "Actl.Ranges.lexRange_eq_zero",
    "Actl.Ranges.lexRange_neg",
    "Actl.Ranges.lexRange_swap",
    "Actl.Ranges.lexRange_trans",
    "Actl.Ranges.lexRange_prefix_fails",
    "Actl.Ranges.lexRange_same_length",
    "Actl.Ranges.equalRange_iff",
    "Actl.Ranges.tuple_compare",
    "Actl.Ranges.tuple_compare_order",
    "Actl.Ranges.equalTuple_iff"
   ],
   "note": "Total order consistent with equality; but the code orders every proper prefix of a range after the range (lexRange_prefix_fails), so the prefix part of the statement is false. Tuples fully proved."
  },
  {
   "property": "C39",
   "status": "proved",
   "theorems": [
    "Actl.Storage.edgeList_history",
    "Actl.Storage.removeEdge_spec",
    "Actl.Storage.findEdge_spec"
   ],
   "note": "Every history of insertions into an edge list with any edge container; fewer than 2^31 edges if the container is a vector (ids are int). For a unique container an edge with the same ends is refused; removal removes exactly the edge designated."
  },
  {
   "property": "C40",
   "status": "proved",
   "theorems": [
    "Actl.Storage.xorRep_other",
    "Actl.Storage.twoRepInt_other",
    "Actl.Storage.twoRep_other",
    "Actl.Storage.targetRep_other"
   ],
   "note": "All int pairs for the xor representations, all types for the others."
  },
  {
   "property": "C41",
   "status": "partial",
   "theorems": [
    "Actl.Storage.adjacency_history_partial",
    "Actl.Storage.adjacency_history_edges_partial",
    "Actl.Storage.adjacencyN_history",
    "Actl.Storage.adjacencyC_history",
    "Actl.Storage.adjacencyC_twoEdges",
    "Actl.Storage.adjacencyN_find",
    "Actl.Storage.adjacencyC_find",
    "Actl.Storage.AdjN.allEdges_empty_ub",
    "Actl.Storage.AdjC.allEdges_empty_ub",
    "Actl.Storage.tryAddEdge_max_ub",
    "Actl.Storage.tryAddEdge_negative_ub"
   ],
   "note": "Every history, direction, kind of out-edge container, with and without an edge container, numbered or fixed vertices, loops and parallel edges. What is missing is false of the code: edges() of a graph without vertices is undefined, and so are endpoints that are negative or the greatest int. Copies of an rvalue bundle at the second end of an undirected edge are moved-from (outWith in adjacencyN_history). With an edge container all selectors are covered, also edge_property (nothing is asked of what the edges store where the out-edges have the targets)."
  },
  {
   "property": "C42",
   "status": "proved",
   "theorems": [
    "Actl.Traversal.visit_eq_recurse",
    "Actl.Traversal.dfsFrom_terminates",
    "Actl.Traversal.dfsFrom_flag_terminates"
   ],
   "note": "For all components (hence all event streams), terminators and starting states the explicit-stack search and the recursion end in the same state, or neither ends. With a component that knows the discovered vertices the search from a source ends for every terminator."
  },
  {
   "property": "C43",
   "status": "proved",
   "theorems": [
    "Actl.Traversal.dfsFrom_explores",
    "Actl.Traversal.dfsAll_explores",
    "Actl.Traversal.dfsFrom_color_explores",
    "Actl.Traversal.dfsFrom_explores_of_tracks",
    "Actl.Traversal.dfsAll_explores_of_tracks"
   ],
   "note": "Explores (Spec/Dfs.lean) states what the recorded events look like."
  },
  {
   "property": "C44",
   "status": "proved",
   "theorems": [
    "Actl.Traversal.dfsAll_intervals",
    "Actl.Traversal.dfsFrom_intervals",
    "Actl.Traversal.dfsAll_stamps"
   ],
   "note": "Positions in the recorded event list, and the in/out stamps."
  },
  {
   "property": "C45",
   "status": "proved",
   "theorems": [
    "Actl.Traversal.topologicalSort_spec",
    "Actl.Traversal.no_topological_order",
    "Actl.Traversal.postorder_spec",
    "Actl.Traversal.orders_perm"
   ],
   "note": "Also what preorder and postorder print. On a graph with a cycle no such order exists."
  },
  {
   "property": "C46",
   "status": "proved",
   "theorems": [
    "Actl.Traversal.bfs_distances",
    "Actl.Traversal.bfs_explores_of_tracks",
    "Actl.Traversal.bfs_repeated_source_fails"
   ],
   "note": "For distinct sources; a source listed twice is discovered twice."
  },
  {
   "property": "C47",
   "status": "proved",
   "theorems": [
    "Actl.Traversal.bfs_predecessors",
    "Actl.Traversal.dfsFrom_predecessors",
    "Actl.Traversal.dfsAll_predecessors"
   ],
   "note": "BFS from any set of sources, DFS from a source and of the whole graph."
  },
  {
   "property": "C48",
   "status": "proved",
   "theorems": [
    "Actl.Traversal.components_spec"
   ],
   "note": "Depth-first search of the whole graph with a fresh recorder."
  },
  {
   "property": "C49",
   "status": "partial",
   "theorems": [
    "Actl.Traversal.findStrongComponents_sound_partial",
    "Actl.Traversal.findStrongComponents_char",
    "Actl.Traversal.findStrongComponents_exact",
    "Actl.Traversal.findStrongComponents_symmetric",
    "Actl.Traversal.findStrongComponents_cycles",
    "Actl.Traversal.findStrongComponents_acyclic",
    "Actl.Traversal.findStrongComponents_splits",
    "Actl.Storage.mixedW_strong_partial"
   ],
   "note": "Same number implies mutual reachability, termination, no undefined behaviour and consecutive numbers are proved for every graph. The converse is false of the code: findStrongComponents_splits shows three mutually reachable vertices given two numbers. findStrongComponents_char says exactly what is computed instead: the strong components of the graph without the edges to vertices finished before the source of the edge was started. Hence the claim holds in full for graphs whose components are simple cycles (_cycles), for components with an opposite edge for each edge (_symmetric) and for acyclic graphs."
  },
  {
   "property": "C50",
   "status": "proved",
   "theorems": [
    "Actl.Traversal.findBridges_spec"
   ],
   "note": "Every undirected graph; with parallel edges, or without when the caller says there are none. Each bridge is output exactly once, in one direction; the component map equates two vertices iff they stay connected whatever edge is removed."
  },
  {
   "property": "C51",
   "status": "partial",
   "theorems": [
    "Actl.Traversal.findArticulationPoints_partial",
    "Actl.Traversal.findArticulationPoints_exact",
    "Actl.Traversal.findArticulationPoints_char",
    "Actl.Traversal.findArticulationPoints_triangle_free",
    "Actl.Traversal.findArticulationPoints_cycle",
    "Actl.Storage.mixedW_articulation_partial"
   ],
   "note": "Every articulation point is marked, and marks of the first vertex of each connected component are exact; in graphs whose blocks are cliques all marks are exact. findArticulationPoints_char says exactly which vertices are marked, for every graph, in terms of the predecessors and times that the recorders of the same search give. In general the code marks too much: in every connected triangle-free graph with at least three vertices and no articulation point some vertex is marked (findArticulationPoints_triangle_free; findArticulationPoints_cycle is the four-cycle)."
  },
  {
   "property": "C52",
   "status": "proved",
   "theorems": [
    "Actl.Geo.area_linear_left",
    "Actl.Geo.area_linear_right",
    "Actl.Geo.area_antisymm",
    "Actl.Geo.polyArea_shoelace",
    "Actl.Geo.polyArea_rotate",
    "Actl.Geo.polyArea_cut",
    "Actl.Geo.polyArea_triangle",
    "Actl.Geo.polyArea_translate",
    "Actl.Geo.polyArea_reverse",
    "Actl.Geo.orientation3_swap",
    "Actl.Geo.orientation3_cyclic",
    "Actl.Geo.orientation3_translate",
    "Actl.Geo.orientation3_eq_area",
    "Actl.Geo.kind_roundtrip",
    "Actl.Geo.cyclic_moves"
   ],
   "note": "Exact arithmetic: areas over every commutative ring, orientations over every linearly ordered field; all points and all vertex lists. Also the kind byte of a line and the moves of the cyclic iterator the polygon loops use."
  },
  {
   "property": "C53",
   "status": "proved",
   "theorems": [
    "Actl.Geo.withinTriangle_correct",
    "Actl.Geo.combination_unique",
    "Actl.Geo.withinTriangle_degenerate"
   ],
   "note": "Exact arithmetic over every linearly ordered field. The degenerate theorem shows the area hypothesis is needed."
  },
  {
   "property": "C54",
   "status": "partial",
   "theorems": [
    "Actl.Geo.withinLine_plane",
    "Actl.Geo.withinLine_space_partial",
    "Actl.Geo.withinLine_start_fails",
    "Actl.Geo.withinPlane_correct",
    "Actl.Geo.makePlane_contains"
   ],
   "note": "Proved in full in the plane. In every other dimension the code is wrong at exactly one point, the first point of a non-degenerate line, which it reports outside (withinLine_start_fails); all other points are proved right."
  },
  {
   "property": "C55",
   "status": "partial",
   "theorems": [
    "Actl.Geo.intersectScalar_correct",
    "Actl.Geo.intersectGeneral_correct",
    "Actl.Geo.intersect_correct",
    "Actl.Geo.intersectScalar_parallel",
    "Actl.Geo.intersect_parallel_apart",
    "Actl.Geo.intersect_coincident_partial",
    "Actl.Geo.intersect_touch_fails",
    "Actl.Geo.intersect_degenerate_fails",
    "Actl.Geo.crossesLines_correct",
    "Actl.Geo.circumcenter_correct"
   ],
   "note": "Non-parallel lines of every kind and parallel lines with different carriers: proved in full. Non-degenerate lines on one carrier: the output is the common part except that a closed end touching an open end is reported as a common point (intersect_touch_fails). With a degenerate second line the code does not test that the point lies on the first (intersect_degenerate_fails)."
  },
  {
   "property": "C56",
   "status": "partial",
   "theorems": [
    "Actl.Geo.projectLine_correct",
    "Actl.Geo.projectLine_idempotent",
    "Actl.Geo.projectLine_nearest",
    "Actl.Geo.projectPlane_correct",
    "Actl.Geo.projectPlane_orthogonal",
    "Actl.Geo.reflectLine_twice",
    "Actl.Geo.reflectPlane_twice",
    "Actl.Geo.reflectPoint_twice",
    "Actl.Geo.reflectLine_isometry",
    "Actl.Geo.reflectPlane_isometry",
    "Actl.Geo.rotate_partial",
    "Actl.Geo.rotate_norm_fails",
    "Actl.Geo.perpendicular_correct",
    "Actl.Geo.cross_correct"
   ],
   "note": "Projection and reflection proved in every dimension. rotate multiplies by (cos, sin; sin, cos): the zero angle is the identity, the norm is kept exactly when the sine, the cosine or a coordinate vanishes (rotate_partial), so the claim on rotation is false of the code (rotate_norm_fails)."
  },
  {
   "property": "C57",
   "status": "partial",
   "theorems": [
    "Actl.Geo.convexHull_partial",
    "Actl.Geo.convexHull_collinear",
    "Actl.Geo.convexHull_collinear_fails",
    "Actl.Geo.convexHull_small",
    "Actl.Geo.convexHull_pivot",
    "Actl.Geo.inHull_of_inPolygon"
   ],
   "note": "Proved in full for every point set that is not on one line (subset of the input, strictly convex counter-clockwise polygon, every input point in it, also as membership in the smallest convex set containing the vertices) and for fewer than two points. The full claim is false of the code for collinear sets: convexHull_collinear_fails shows that for every collinear set with two different points the result is the lexicographically smallest point only."
  },
  {
   "property": "C58",
   "status": "partial",
   "theorems": [
    "Actl.Random.hashArith_injective",
    "Actl.Random.hashRange_last_injective",
    "Actl.Random.hashTuple_last_injective",
    "Actl.Random.hashRange_ints_last_injective",
    "Actl.Random.hash_double_zeros_differ",
    "Actl.Random.hashArith8_surjective",
    "Actl.Random.hashRange_hit",
    "Actl.Random.hashRange_prefix_once",
    "Actl.Random.hash_unordered_fails",
    "Actl.Random.hash_widths_differ",
    "Actl.Random.hash_signed_widths_differ"
   ],
   "note": "Injectivity in the last element proved, and that exactly one 64-bit last element reaches any given hash. 'Equal values hash equally' holds for bit-equal values by construction but is false for floating point, 0.0 and -0.0 (hash_double_zeros_differ), for keys that are unordered sets (hash_unordered_fails: the hash follows the order of iteration) and for one number other than 0 in two types of different width (hash_widths_differ, hash_signed_widths_differ)."
  },
  {
   "property": "C59",
   "status": "proved",
   "theorems": [
    "Actl.Decor.write_joined",
    "Actl.Decor.write_intercalate",
    "Actl.Decor.render_tuple",
    "Actl.Decor.render_vector",
    "Actl.Decor.render_map_braced",
    "Actl.Decor.render_map_plain",
    "Actl.Decor.write_twice",
    "Actl.Decor.braced_balanced"
   ],
   "note": "Formats spaced >>= text and spaced >>= braced >>= text, device that accepts everything. Containers of dynamic size are written after their size when not braced; ranges that are not containers (span, views) get no brackets; a std::string is braced as the list of its characters."
  },
  {
   "property": "C60",
   "status": "proved",
   "theorems": [
    "Actl.Ids.idEmplace_spec",
    "Actl.Ids.emplaceAll_ids",
    "Actl.Ids.ids_spec",
    "Actl.Ids.idFind_spec",
    "Actl.Ids.idErase_spec",
    "Actl.Ids.idEmplace_overflow_fails",
    "Actl.Ids.idEmplace_alias_fails"
   ],
   "note": "Every kind of container, every history of insertions. Ids of random access containers are int: from 2^31 elements on they wrap (idEmplace_overflow_fails, idEmplace_alias_fails)."
  },
  {
   "property": "C61",
   "status": "proved",
   "theorems": [
    "Actl.Random.seed_nonzero",
    "Actl.Random.seed_fuel_irrelevant",
    "Actl.Random.seed_depends_on_sum",
    "Actl.Random.seed_terminates"
   ],
   "note": "The retry loop ends for every string (seed_terminates, by the full period of the generator, C106)."
  },
  {
   "property": "C62",
   "status": "proved",
   "theorems": [
    "Actl.Geo.winding_border",
    "Actl.Geo.winding_angle",
    "Actl.Geo.winding_rotate",
    "Actl.Geo.winding_reverse",
    "Actl.Geo.winding_cut",
    "Actl.Geo.winding_separated",
    "Actl.Geo.winding_left",
    "Actl.Geo.winding_convex",
    "Actl.Geo.withinSimple_border",
    "Actl.Geo.withinSimple_convex",
    "Actl.Geo.winding_border_value"
   ],
   "note": "winding_angle is over the real numbers (sum of Complex.arg of the quotients of consecutive directions); the others over every ordered field. Exact arithmetic, unbounded counter."
  },
  {
   "property": "C63",
   "status": "proved",
   "theorems": [
    "Actl.Geo.toMonotone_monotone",
    "Actl.Geo.within_toMonotone",
    "Actl.Geo.withinConvexMonotone_eq",
    "Actl.Geo.withinMonotone_convex",
    "Actl.Geo.withinMonotone_eq",
    "Actl.Geo.withinMonotone_simple"
   ],
   "note": "std::lower_bound is modelled by its result on a partitioned range. The general theorem has the hypothesis NotInverted (below the lower chain one is below the upper chain); it is proved for strictly convex polygons and for all simple monotone polygons that turn left at the first vertex (withinMonotone_simple)."
  },
  {
   "property": "C64",
   "status": "partial",
   "theorems": [
    "Actl.Geo.nearestLine_correct",
    "Actl.Geo.nearestLine_none_iff",
    "Actl.Geo.distanceLine_correct",
    "Actl.Geo.distanceLine_infimum",
    "Actl.Geo.distanceLine_degenerate_fails",
    "Actl.Geo.nearestPlane_correct",
    "Actl.Geo.distancePlane_correct",
    "Actl.Geo.distancePoint_correct",
    "Actl.Geo.withinSphere_correct",
    "Actl.Geo.crossesPointPlane_correct",
    "Actl.Geo.crossesSpheres_correct",
    "Actl.Geo.crossesSpheres_line_fails",
    "Actl.Geo.crossesPlanes_correct",
    "Actl.Geo.crossesPlaneSphere_fails",
    "Actl.Geo.crossesPlaneSphere_partial"
   ],
   "note": "Proved except where the code is wrong: distance to a degenerate line, ray or segment divides zero by zero (distanceLine_degenerate_fails), and crosses(plane, sphere) is inverted for every plane that is not tangent (crossesPlaneSphere_fails). The square root is a parameter with the property IsSqrt, met by Real.sqrt."
  },
  {
   "property": "C65",
   "status": "partial",
   "theorems": [
    "Actl.Geo.intersectCircles_correct",
    "Actl.Geo.intersectCircles_identical_fails",
    "Actl.Geo.lineSphereScalar_correct",
    "Actl.Geo.lineSpherePoints_partial",
    "Actl.Geo.lineSpherePoints_position_fails",
    "Actl.Geo.tangents_partial",
    "Actl.Geo.tangentAt_exists",
    "Actl.Geo.tangents_position_fails",
    "Actl.Geo.tangentAngles_fails",
    "Actl.Geo.tangentAngles_partial"
   ],
   "note": "Circle-circle and the scalar form of line-sphere are proved in full except identical circles, where the code divides by zero. The point form of line-sphere never advances the output iterator (all points go to one position), tangents returns the iterator it was given, and the tangent angles use atan2(r, d) instead of asin(r/d), so both lines cut the circle; these are proved as negations, the values written are proved right."
  },
  {
   "property": "C66",
   "status": "partial",
   "theorems": [
    "Actl.Geo.sortByAngle_correct",
    "Actl.Geo.sortByAngleAround_partial",
    "Actl.Geo.sortByAngleAround_fails",
    "Actl.Geo.listAlgorithms_correct"
   ],
   "note": "sort_by_angle(points) is proved for every input. The form with an origin compares the points without subtracting the origin: proved right for the origin (0, 0) and wrong for every other origin (two points that come out in the wrong order)."
  },
  {
   "property": "C67",
   "status": "proved",
   "theorems": [
    "Actl.Geo.nearestPair_correct",
    "Actl.Geo.nearestPair_none_iff"
   ],
   "note": "The square root is any function that is exact on non-negative numbers (Real.sqrt in the example)."
  },
  {
   "property": "C68",
   "status": "partial",
   "theorems": [
    "Actl.Geo.antipodalVertices_defined",
    "Actl.Geo.antipodalVertices_complete",
    "Actl.Geo.antipodalVertices_misses",
    "Actl.Geo.antipodalVertices_two_ub",
    "Actl.Geo.antipodalVertices_nil_ub",
    "Actl.Geo.maxDistance_partial"
   ],
   "note": "Proved for every strictly convex polygon, with two exceptions of the code, both proved: a pair of vertices whose edges (after the first, before the second) are parallel is not written (it never has the greatest distance), and polygons with two vertices or none are read out of bounds."
  },
  {
   "property": "C69",
   "status": "proved",
   "theorems": [
    "Actl.Geo.extremeVertex_correct",
    "Actl.Geo.extremeVertex_none",
    "Actl.Geo.tangentVertices_correct"
   ],
   "note": "Exact arithmetic over any ordered field. Fewer than two vertices: the assertion of the cyclic iterator (exactly then)."
  },
  {
   "property": "C70",
   "status": "partial",
   "theorems": [
    "Actl.IntText.encodeReal_correct_partial",
    "Actl.IntText.accurate_id",
    "Actl.IntText.encodeReal_special",
    "Actl.IntText.encodeReal_base_zero_ub",
    "Actl.IntText.encodeReal_sign_ub",
    "Actl.IntText.encodeReal_prefix_ub",
    "Actl.IntText.encodeReal_precision_fails",
    "Actl.IntText.encodeReal_large_ub"
   ],
   "note": "The claim is false of the code: undefined behaviour for 2^64 and more, base 0, 20 digits with sign and point, base prefixes; wrong text for 64 and more digits. Proved outside of these cases (and the power of the base below 2^64), for every rounding with a bounded error; the failures are proved for all inputs of their kind."
  },
  {
   "property": "C71",
   "status": "proved",
   "theorems": [
    "Actl.IntText.readReal_correct",
    "Actl.IntText.realValue_fixedPoint",
    "Actl.IntText.encode_readReal"
   ],
   "note": "Real numbers are elements of a field of characteristic 0 with exact arithmetic (the input with rounding is C123). readReal_correct: consumed characters and value, all texts and divisions. Round trip with the output under the conditions of C70 (the output fails outside them)."
  },
  {
   "property": "C72",
   "status": "proved",
   "theorems": [
    "Actl.Geo.intersectConvex_correct"
   ],
   "note": "Exact scalars. As the headers on lines name an undeclared template parameter P, the model takes it for the policy parameter. When the line touches the polygon in one vertex t1 = t2 is written twice (the theorem says so)."
  },
  {
   "property": "C73",
   "status": "proved",
   "theorems": [
    "Actl.Geo.intersectSimple_simple",
    "Actl.Geo.intersectSimple_within",
    "Actl.Geo.intersectSimple_correct",
    "Actl.Geo.intersectSimple_general",
    "Actl.Geo.intersectSimple_touch",
    "Actl.Geo.intersectSimple_convex"
   ],
   "note": "Exact scalars. The header does not compile as it stands (undeclared P, and it for iter); the model takes them for the policy parameter and iter. intersectSimple_simple and intersectSimple_within hold for every simple counter-clockwise polygon and every line, ray and segment; intersectSimple_correct has only the four local conditions of SimpleAlong as hypotheses, which simpleAlong_simple proves of every simple counter-clockwise polygon (with the Jordan curve theorem for polygons of C119). intersectSimple_within says it through within(point, simple_polygon): off the border a point of the line is inside exactly if an odd number of the parameters comes before it."
  },
  {
   "property": "C74",
   "status": "proved",
   "theorems": [
    "Actl.TypeArray.typeAt_correct",
    "Actl.TypeArray.typesSlice_correct",
    "Actl.TypeArray.typesPrefix_correct",
    "Actl.TypeArray.typesSuffix_correct",
    "Actl.TypeArray.typesConcat_correct",
    "Actl.TypeArray.typesConcat_prefix_suffix"
   ],
   "note": "Metafunctions as functions on lists; no matching specialization is none."
  },
  {
   "property": "C75",
   "status": "partial",
   "theorems": [
    "Actl.Iterators.advance_correct",
    "Actl.Iterators.retreat_correct",
    "Actl.Iterators.step_correct",
    "Actl.Iterators.compareIter_correct",
    "Actl.Iterators.advance_unsigned",
    "Actl.Iterators.retreat_unsigned",
    "Actl.Iterators.step_unsigned",
    "Actl.Iterators.difference_unsigned",
    "Actl.Iterators.difference_unsigned_fails",
    "Actl.Iterators.compareIter_unsigned_fails",
    "Actl.Iterators.retreat_unsigned_offset_fails",
    "Actl.Iterators.pointer_range_members",
    "Actl.Iterators.integer_range_members_dangle",
    "Actl.Iterators.advance_unsigned_step"
   ],
   "note": "Signed types and types shorter than int: proved. Unsigned types of 32 bits and more with signed steps and offsets: moving is proved for both signs, the difference where it is not negative and the step is positive. False of the code: for unsigned types the difference is never negative and < is never true, so of two different iterators each is greater than the other; going back by an unsigned offset shorter than the value type goes forward; front(), back() and [] of an integer range and [] of an integer iterator return dangling references."
  },
  {
   "property": "C76",
   "status": "partial",
   "theorems": [
    "Actl.Iterators.walkNodes_correct",
    "Actl.Iterators.backNodes_correct",
    "Actl.Iterators.next_prev",
    "Actl.Iterators.end_prev_fails"
   ],
   "note": "Proved except for the end iterator: decrementing it fails an assertion (end_prev_fails)."
  },
  {
   "property": "C77",
   "status": "partial",
   "theorems": [
    "Actl.Iterators.limited_correct",
    "Actl.Iterators.limited_zero_fails",
    "Actl.Iterators.limited_used_up"
   ],
   "note": "Proved for positive limits; with limit 0 the range is not empty and its first increment fails an assertion. The comparison with the end is taken from iterator_adaptor without its requires-clause, which rejects iterators of the input category."
  },
  {
   "property": "C78",
   "status": "partial",
   "theorems": [
    "Actl.Indent.indented_outline",
    "Actl.Indent.indented_lines",
    "Actl.Indent.indented_split",
    "Actl.Indent.indented_level",
    "Actl.Indent.indented_twice",
    "Actl.Indent.indented_string_glued",
    "Actl.Indent.indented_colon_line"
   ],
   "note": "Proved for all trees of units, tuples, ranges, batches and raw text. Not true of strings: they are ranges, which indented leaves alone, so a string is glued to the current line (indented_string_glued); the colon of a map entry gets an empty line of its own (indented_colon_line)."
  },
  {
   "property": "C79",
   "status": "partial",
   "theorems": [
    "Actl.LineBuf.line_reader_all",
    "Actl.LineBuf.line_reader_piece",
    "Actl.LineBuf.line_reader_one",
    "Actl.LineBuf.line_reader_zero_char",
    "Actl.LineBuf.line_reader_span",
    "Actl.LineBuf.line_writer_all",
    "Actl.LineBuf.line_writer_flushed",
    "Actl.LineBuf.line_writer_lines"
   ],
   "note": "The reader is right for files without zero characters and spans of two characters at least; it is wrong for the others (line_reader_one, line_reader_zero_char), and reading a span through the library always reports failure (line_reader_span). The writer has the stated effect up to its closing brace, but it has no return statement, which is undefined behaviour."
  },
  {
   "property": "C80",
   "status": "partial",
   "theorems": [
    "Actl.FnTraits.assemble_traits",
    "Actl.FnTraits.traits_injective",
    "Actl.FnTraits.traits_core",
    "Actl.FnTraits.withReturn_traits",
    "Actl.FnTraits.setNoexcept_traits",
    "Actl.FnTraits.setVariadic_traits",
    "Actl.FnTraits.object_traits",
    "Actl.FnTraits.modifyClass_member",
    "Actl.FnTraits.member_qualifiers",
    "Actl.FnTraits.copyCvref_eq",
    "Actl.FnTraits.asFree_member",
    "Actl.FnTraits.asMemberOf_free",
    "Actl.FnTraits.asMemberOf_member",
    "Actl.FnTraits.classOf_member",
    "Actl.FnTraits.asFree_asMemberOf",
    "Actl.FnTraits.free_callable",
    "Actl.FnTraits.free_pointer_pointer",
    "Actl.FnTraits.withReturn_pointer",
    "Actl.FnTraits.volatile_not_function",
    "Actl.FnTraits.member_addRvalue_lvalue"
   ],
   "note": "Proved for all function types. Four things the comments in the code say do not hold: a pointer to a pointer to a function counts as a free function although it cannot be called (free_pointer_pointer), changing a property of a function pointer loses the pointer (withReturn_pointer), a volatile pointer has no traits (volatile_not_function), adding && to a member function with & does nothing (member_addRvalue_lvalue)."
  },
  {
   "property": "C81",
   "status": "partial",
   "theorems": [
    "Actl.Convert.convert_has",
    "Actl.Convert.convert_leaves_partial",
    "Actl.Convert.convert_vec_tuple",
    "Actl.Convert.convert_vec_arr",
    "Actl.Convert.convert_numbers_vec",
    "Actl.Convert.can_fuel",
    "Actl.Convert.conv_fuel",
    "Actl.Convert.convert_vec_vec_fails",
    "Actl.Convert.convert_empty_tuple",
    "Actl.Convert.nested_tuple_not_convertible",
    "Actl.Convert.can_vec_vec",
    "Actl.Convert.vec_tuple_not_constructible",
    "Actl.Convert.convert_each"
   ],
   "note": "Proved for targets without vectors in vectors and sources without empty tuples. The code is wrong otherwise: a vector of numbers becomes a vector of vectors of zeros, an empty tuple converts to default values of every sequence, a tuple of one tuple of two does not convert to itself, and any vector is said to convert to any vector."
  },
  {
   "property": "C82",
   "status": "partial",
   "theorems": [
    "Actl.Expr.eval_iff",
    "Actl.Expr.eval_sound",
    "Actl.Expr.call_iff",
    "Actl.Expr.comparisons",
    "Actl.Expr.implies_eval",
    "Actl.Expr.sgn_squared",
    "Actl.Expr.ifElse_eval",
    "Actl.Expr.tolerant",
    "Actl.Expr.tolerant_cmp3",
    "Actl.Expr.sgn_ignores",
    "Actl.Expr.sgn_not_tolerant",
    "Actl.Expr.inout_meaning",
    "Actl.Expr.inout_squared_fails"
   ],
   "note": "Every expression without policies is evaluated exactly to its meaning; the comparisons are tolerant with absolute_error; inout calls of the operations with a scalar implementation assign the meaning. The full claim is false of the code: sgn ignores the policy for every number (sgn_ignores, sgn_not_tolerant), and operations given by an expression do not compile with inout (inout_squared_fails). add and multiply have no overload for an integer with a floating point number. Integers are unbounded and floating point numbers are rationals in the model."
  },
  {
   "property": "C83",
   "status": "partial",
   "theorems": [
    "Actl.Storage.tryAddEdge_vec",
    "Actl.Storage.addVertex_spec",
    "Actl.Storage.addEdgeOf_spec",
    "Actl.Storage.call_closed",
    "Actl.Storage.closed_history",
    "Actl.Storage.addEdge_negative_fails",
    "Actl.Storage.resize_dangling_fails",
    "Actl.Storage.setVertex_duplicate_fails"
   ],
   "note": "Proved for all histories of add_vertex, add_edge, add_edge of values and remove_edge with arguments in range. The full claim is false of the code: an edge with a negative end is accepted although its end is no vertex (addEdge_negative_fails), resize drops vertices but not their edges (resize_dangling_fails), and an assignment through graph[u] can give two vertices of a unique container equal values (setVertex_duplicate_fails)."
  },
  {
   "property": "C84",
   "status": "proved",
   "theorems": [
    "Actl.Geo.polarAngle_spec",
    "Actl.Geo.angle_products",
    "Actl.Geo.angle_plane",
    "Actl.Geo.angle_turn",
    "Actl.Geo.angleAt_turn",
    "Actl.Geo.angle_add",
    "Actl.Geo.angle_space",
    "Actl.Geo.bisector_spec",
    "Actl.Geo.angle_bisector",
    "Actl.Geo.invert_spec",
    "Actl.Geo.invertSphere_spec",
    "Actl.Geo.invert_dist"
   ],
   "note": "Exact arithmetic: real numbers, square_root and atan2 are parameters with their specification as a hypothesis; isSqrt_real and isAtan2_arg show that such functions exist. Rounding is not modelled."
  },
  {
   "property": "C85",
   "status": "partial",
   "theorems": [
    "Actl.Match.invokeFirst_sound",
    "Actl.Match.invokeFirst_spec",
    "Actl.Match.invokeAll_spec",
    "Actl.Match.invokeFirst_const_fails",
    "Actl.Match.invokeFirst_lvalue_fails",
    "Actl.Match.invokeAll_lref_fails",
    "Actl.Match.binds_iff",
    "Actl.Match.takes_iff",
    "Actl.Match.selfOk_iff",
    "Actl.Match.invocable_iff"
   ],
   "note": "Proved for functions without reference qualifiers in a tuple that is not const (or with const functions only), and for parameters other than T& and auto&. The full claim is false of the code: the search takes the elements as rvalues that are not const, so in a const tuple a mutable function hides the following ones and the call does not compile (invokeFirst_const_fails), and a function with an lvalue qualifier is never found (invokeFirst_lvalue_fails); invoke_all_matching tests invocability with rvalues, so a function with a parameter T& is silently skipped (invokeAll_lref_fails)."
  },
  {
   "property": "C86",
   "status": "partial",
   "theorems": [
    "Actl.Span.make_spec",
    "Actl.Span.make_extent",
    "Actl.Span.make_null",
    "Actl.Span.makeEmpty_spec",
    "Actl.Span.makeRange_spec",
    "Actl.Span.convert_spec",
    "Actl.Span.elems_spec",
    "Actl.Span.index_spec",
    "Actl.Span.assign_spec",
    "Actl.Span.front_spec",
    "Actl.Span.back_spec",
    "Actl.Span.first_spec",
    "Actl.Span.last_spec",
    "Actl.Span.subspan_spec",
    "Actl.Span.subspanFrom_spec",
    "Actl.Span.first_subspan",
    "Actl.Span.makeRange_reversed_fails",
    "Actl.Span.subspanFrom_beyond_fails",
    "Actl.Span.subspan_overflow_fails"
   ],
   "note": "Everything holds of requests within the span; misuse is reported except where the code is wrong: every offset beyond the size passes the assertion of subspan(offset), every wrapping sum that of subspan(offset, count), and reversed pointers make a huge span."
  },
  {
   "property": "C87",
   "status": "proved",
   "theorems": [
    "Actl.Span.copyTo_spec",
    "Actl.Span.copy_spec",
    "Actl.Span.copy_overlap_fails"
   ],
   "note": "Source and target are spans of one array; copying from filtered ranges is C145; other input and output iterators are not modelled."
  },
  {
   "property": "C88",
   "status": "partial",
   "theorems": [
    "Actl.Manipulators.run_text",
    "Actl.Manipulators.write_settings",
    "Actl.Manipulators.calls_flatten",
    "Actl.Manipulators.calls_settings",
    "Actl.Manipulators.level_parts",
    "Actl.Manipulators.guarded_levels",
    "Actl.Manipulators.base_ignored",
    "Actl.Manipulators.base_ignored_fails",
    "Actl.Manipulators.flags_compile_fails"
   ],
   "note": "Holds of flag and level manipulators; false of the base manipulators, which are ignored, and flag manipulators do not compile with composed or static formats."
  },
  {
   "property": "C89",
   "status": "partial",
   "theorems": [
    "Actl.Equality.isEqualSequence_spec",
    "Actl.Equality.isEqualSequence_same",
    "Actl.Equality.isEqualSequence_comm",
    "Actl.Equality.eqOp_iff",
    "Actl.Equality.eqOp_mixed",
    "Actl.Equality.eqOp_comm",
    "Actl.Equality.semiEq_spec",
    "Actl.Equality.select_spec",
    "Actl.Equality.isEqualSequence_mixed_fails",
    "Actl.Equality.isEqualSequence_array_fails"
   ],
   "note": "Proved unless a negative number meets a number of an unsigned type at least as wide. The full claim is false of the code: elements are compared with the built-in == after the usual arithmetic conversions, so every negative number equals some other number of a wide enough unsigned type (isEqualSequence_mixed_fails); sequences that are built-in arrays do not compile (isEqualSequence_array_fails)."
  },
  {
   "property": "C90",
   "status": "partial",
   "theorems": [
    "Actl.Storage.edge_handles_edges",
    "Actl.Storage.edge_handles_partial",
    "Actl.Storage.sameN_key",
    "Actl.Storage.sameC_key",
    "Actl.Storage.reverse_handle_fails",
    "Actl.Storage.inEdges_bundle_misses"
   ],
   "note": "Proved in full with an edge container, and without one for directed and bidirectional graphs. False of undirected graphs without an edge container: an edge seen from its second end never equals the handle returned for it (reverse_handle_fails), and the in-edges have the bundles of unrelated edges, or reading them is undefined (inEdges_bundle_misses)."
  },
  {
   "property": "C91",
   "status": "proved",
   "theorems": [
    "Actl.Traversal.bfs_predecessor_edges",
    "Actl.Traversal.dfsFrom_predecessor_edges",
    "Actl.Traversal.dfsAll_predecessor_edges"
   ],
   "note": "The value kept at the sources is that of the map passed in: nothing initializes it."
  },
  {
   "property": "C92",
   "status": "partial",
   "theorems": [
    "Actl.Algebra.add_spec",
    "Actl.Algebra.mul_spec",
    "Actl.Algebra.add_defined",
    "Actl.Algebra.mul_defined",
    "Actl.Algebra.band_spec",
    "Actl.Algebra.bor_spec",
    "Actl.Algebra.bxor_spec",
    "Actl.Algebra.bnot_spec",
    "Actl.Algebra.run_comm",
    "Actl.Algebra.arith_assoc",
    "Actl.Algebra.run_assoc",
    "Actl.Algebra.lmax_spec",
    "Actl.Algebra.identity_spec",
    "Actl.Algebra.identity_defined",
    "Actl.Algebra.runInto_spec",
    "Actl.Algebra.arithInto_spec",
    "Actl.Algebra.bitsInto_spec",
    "Actl.Algebra.runInto_right",
    "Actl.Algebra.add_assoc_fails",
    "Actl.Algebra.mixed_assoc_fails",
    "Actl.Algebra.identity_band_fails",
    "Actl.Algebra.lmin_fails",
    "Actl.Algebra.lmax_mixed_fails"
   ],
   "note": "Everything stated is proved, except where the code is wrong: min does not compile (it calls an undeclared less), identity_element of bit_and does not compile for any unsigned type (T{-1}), and operations declared is_associative are not so across types (mixed_assoc_fails) or when one order overflows (add_assoc_fails)."
  },
  {
   "property": "C93",
   "status": "partial",
   "theorems": [
    "Actl.OutParam.passOn_denotes",
    "Actl.OutParam.passOn_defined",
    "Actl.OutParam.inout_from_out",
    "Actl.OutParam.wrap_wrap",
    "Actl.OutParam.assign_number",
    "Actl.OutParam.assign_bit",
    "Actl.OutParam.assign_constant_fails",
    "Actl.OutParam.assign_view_fails",
    "Actl.OutParam.assign_view_rebinds_fails"
   ],
   "note": "Proved for numbers and bits. False for views: assignment to out<std::span<T>> assigns a temporary copy of the view, so no element changes and the source is returned; from a temporary of the same class it rebinds the wrapper. A constant wrapper of the same class cannot be assigned."
  },
  {
   "property": "C94",
   "status": "partial",
   "theorems": [
    "Actl.CommonType.strictCommon_constants",
    "Actl.CommonType.strictCommon_other",
    "Actl.CommonType.strictCommon_sound",
    "Actl.CommonType.strictCommon_perm",
    "Actl.CommonType.strictCommon_unconstructible_fails",
    "Actl.CommonType.commonValue_iff",
    "Actl.CommonType.commonValue_perm",
    "Actl.CommonType.commonValue_group",
    "Actl.CommonType.commonIdentity_fails",
    "Actl.CommonType.commonValue_mixed_fails",
    "Actl.CommonType.commonType_spec",
    "Actl.CommonType.commonType_perm",
    "Actl.CommonType.runPromoted_eq",
    "Actl.CommonType.isLessPromoted_eq",
    "Actl.CommonType.ifElsePromoted_eq",
    "Actl.CommonType.commonPromoted_iff",
    "Actl.CommonType.commonPromoted_equal",
    "Actl.CommonType.commonPromoted_mixed_fails"
   ],
   "note": "Proved except where the code fails: two or more types without a default constructor never compile in strict_common_type; the identity element of common cannot be combined with any number; common | allow_promotion takes a negative number for the number of an unsigned type that is larger by a power of two."
  },
  {
   "property": "C95",
   "status": "partial",
   "theorems": [
    "Actl.Adaptor.run_eq",
    "Actl.Adaptor.step_category",
    "Actl.Adaptor.collect_spec",
    "Actl.Adaptor.subEq_unsigned_fails"
   ],
   "note": "Proved for all programs that subtract no offset of an unsigned type as wide as int (and not the least number of a signed type): it - k negates k in its own type, so for every positive unsigned k the iterator moves forward out of the array (subEq_unsigned_fails)."
  },
  {
   "property": "C96",
   "status": "partial",
   "theorems": [
    "Actl.Built.graphN_shows",
    "Actl.Built.graphC_shows",
    "Actl.Built.bfs_shows",
    "Actl.Built.dfs_shows",
    "Actl.Built.topologicalSort_shows",
    "Actl.Built.components_shows",
    "Actl.Built.bridges_built",
    "Actl.Built.bridges_builtN",
    "Actl.Built.strong_shows_partial",
    "Actl.Built.articulation_shows_partial"
   ],
   "note": "Composition of C41 with C43, C45, C46, C48-C51, in terms of the list of calls. Bridges with an edge container (by handle) and without one (by ends and index of the call). Missing: endpoints of the greatest int or negative ones, where the insertion is undefined (C41); associative edge containers do not compile (static assertion). Strong components and articulation points, beyond the statement, inherit the defects of C49 and C51."
  },
  {
   "property": "C97",
   "status": "partial",
   "theorems": [
    "Actl.Composite.equal_close",
    "Actl.Composite.order_exact",
    "Actl.Composite.greater_dictionary",
    "Actl.Composite.comparisons_agree",
    "Actl.Composite.prefix_less_greater",
    "Actl.Composite.tolerance_equal_less",
    "Actl.Composite.greater_tolerance_fails",
    "Actl.Composite.equal_one_fails",
    "Actl.Composite.order_short_fails"
   ],
   "note": "Equality with and without a tolerance is proved for every nesting (equal_close), and agreement of all seven comparisons without a tolerance for operands of the same sizes (comparisons_agree). The rest of the claim is false of the code and refuted for all such inputs: orderings ignore the tolerance (order_exact, tolerance_equal_less) or do not compile with one (greater_tolerance_fails), a range is both less and greater than its proper prefix (prefix_less_greater), one-element tuples, and for orderings empty ones, do not compile (equal_one_fails, order_short_fails). Types that are both ranges and tuples are excluded."
  },
  {
   "property": "C98",
   "status": "partial",
   "theorems": [
    "Actl.TextTree.text_pieces",
    "Actl.TextTree.read_text_iff",
    "Actl.TextTree.read_text_rest",
    "Actl.TextTree.read_text_followed",
    "Actl.TextTree.read_text_zero_fails",
    "Actl.TextTree.read_text_word_fails",
    "Actl.TextTree.read_text_char_fails",
    "Actl.TextTree.read_text_comma_fails"
   ],
   "note": "Writing is proved in full. Reading back is characterised exactly: it gives the value iff no number written (sizes included) is zero except as the last piece, strings have no whitespace and are followed by whitespace, and, if whitespace is skipped, no character is whitespace and no empty string precedes other text. A zero followed by anything is read as another number (the lone-zero defect of C12/C13) and an empty string before other text takes that text (skipws), so the full claim is false of the code. Signed integers narrower than int cannot be written (they do not compile). Floating point numbers are C124, sets and maps C118."
  },
  {
   "property": "C99",
   "status": "partial",
   "theorems": [
    "Actl.FileDevice.open_directions",
    "Actl.FileDevice.open_contents",
    "Actl.FileDevice.open_in_out_fails",
    "Actl.FileDevice.open_trunc_fails",
    "Actl.FileDevice.run_in_order",
    "Actl.FileDevice.peek_next",
    "Actl.FileDevice.peek_end_fails",
    "Actl.FileDevice.peek_empty_fails",
    "Actl.FileDevice.skip_stops",
    "Actl.FileDevice.skip_end_fails",
    "Actl.FileDevice.skip_zero_diverges",
    "Actl.FileDevice.write_out",
    "Actl.FileDevice.write_app",
    "Actl.FileDevice.write_read_back",
    "Actl.FileDevice.direction_change_ub"
   ],
   "note": "False of the code, each for all inputs: in|out empties an existing file and trunc keeps it (table entries exchanged); peek at the end takes the last character back (assertion for an empty file), so skipping white space at the end leaves a character, or never returns if zeros are skipped; input directly after output and output directly after input are undefined. The rest is proved. C streams are modelled as in POSIX, without failures of the disk."
  },
  {
   "property": "C100",
   "status": "partial",
   "theorems": [
    "Actl.BinaryAssoc.read_write_sets",
    "Actl.BinaryAssoc.read_write_iff",
    "Actl.BinaryAssoc.read_key_fails",
    "Actl.BinaryAssoc.read_map_two_fails",
    "Actl.BinaryAssoc.read_map_keys",
    "Actl.BinaryAssoc.read_set_keeps"
   ],
   "note": "Proved in full for sets and multisets (read_write_sets). False for maps: the key of an element is read as a constant (const_cast to first_type, which is const, does not remove it), i.e. compared with a value-initialized key; a value with maps is read back iff all keys are zero (read_write_iff), is refused otherwise (read_key_fails), and no map of two elements is ever read (read_map_two_fails)."
  },
  {
   "property": "C101",
   "status": "partial",
   "theorems": [
    "Actl.Traversal.findBoth_marks",
    "Actl.Traversal.findBiconnected_partial",
    "Actl.Traversal.findBiconnected_char",
    "Actl.Traversal.findBiconnected_forest",
    "Actl.Traversal.findBiconnected_splits",
    "Actl.Traversal.findBiconnected_merges"
   ],
   "note": "Proved for every undirected graph: termination, every non-loop edge numbered exactly once (seen from one end), loops and other keys never, edges of one number are connected, marks equal to those of find_articulation_points. findBiconnected_char says exactly which number every edge gets, in terms of the events and times of a depth-first search (the return over a tree edge that closes it), so the partition computed is characterised completely. The equivalence with biconnected components is proved for forests with loops and parallel edges. It is false in general in both directions, because low is not propagated when a tree edge is finished and the popped prefix is cut by time only: findBiconnected_splits (a cycle of 4 edges gets two numbers), findBiconnected_merges (a bridge and an edge of a triangle share a number)."
  },
  {
   "property": "C102",
   "status": "proved",
   "theorems": [
    "Actl.Containers.twoStacks_amortized",
    "Actl.Containers.twoStacks_single",
    "Actl.BinaryPow.binaryPow_steps",
    "Actl.Geo.extremeVertex_steps",
    "Actl.Geo.intersectConvex_steps",
    "Actl.Geo.antipodalVertices_steps",
    "Actl.Geo.convexHull_steps",
    "Actl.Geo.nearestPair_steps"
   ],
   "note": "Counting copies of the modelled functions; each theorem also states that the other component is the result of the function itself. Sorting and minmax_element of the standard library are not counted (their complexity is prescribed by the standard). The documented O(log N) of within for monotone polygons is that of std::lower_bound and is not modelled."
  },
  {
   "property": "C103",
   "status": "proved",
   "theorems": [
    "Actl.Geo.orientation_box",
    "Actl.Geo.orientation_overflow",
    "Actl.Geo.convexHull_box",
    "Actl.Geo.convexHull_int",
    "Actl.Geo.convexHull_overflow",
    "Actl.Geo.withinTriangle_box",
    "Actl.Geo.windingNumber_box",
    "Actl.Geo.withinSimple_box",
    "Actl.Geo.polyArea_box",
    "Actl.Geo.polyArea_overflow"
   ],
   "note": "Widths of differences (w) and products (W) are parameters, since product(policy, x, y) is declared nowhere in the snapshot. Winding numbers: polygons of fewer than 2^31 vertices."
  },
  {
   "property": "C104",
   "status": "partial",
   "theorems": [
    "Actl.Tensor.access_checked",
    "Actl.Tensor.assign_one",
    "Actl.Tensor.rows_concat",
    "Actl.Tensor.elements_all",
    "Actl.Tensor.dynamic_subscript_ub",
    "Actl.Tensor.dynamic_call"
   ],
   "note": "Proved for tensors of static rank and their views. For tensors of dynamic rank (tensor<T>) the call operator is proved as well, but the claim about subscripts is false: dynamic_subscript_ub proves that every subscript reads outside the dimensions."
  },
  {
   "property": "C105",
   "status": "partial",
   "theorems": [
    "Actl.Modular.program_residues",
    "Actl.Modular.equalVars_iff",
    "Actl.Modular.program_prime",
    "Actl.Modular.unreduced_fails",
    "Actl.Modular.negative_fails",
    "Actl.Modular.check_iff"
   ],
   "note": "Proved for elements constructed from numbers in [0, m). The constructor does not reduce: for every k >= m the element is not equal to the element of its residue class (unreduced_fails), and for every negative k it does not hold the residue unless m divides 2^w (negative_fails). check() fails for every element of the ring modulo 2^w (check_iff)."
  },
  {
   "property": "C106",
   "status": "proved",
   "theorems": [
    "Actl.Random.xoro_full_period",
    "Actl.Random.xoro_period",
    "Actl.Random.xoro_reaches_every_state",
    "Actl.Random.xoro_output_period",
    "Actl.Random.xoro_streams_shifted"
   ],
   "note": "For all 2^128-1 nonzero states; nothing is enumerated. The finite computations inside (products of polynomials modulo a polynomial of degree 128) are done by the kernel."
  },
  {
   "property": "C107",
   "status": "proved",
   "theorems": [
    "Actl.Maps.MapTree.tree_get",
    "Actl.Maps.MapTree.tree_get_pure",
    "Actl.Maps.MapTree.tree_invert",
    "Actl.Maps.MapTree.tree_put",
    "Actl.Maps.MapTree.tree_put_defined",
    "Actl.Maps.MapTree.tree_range",
    "Actl.Maps.MapTree.tree_history",
    "Actl.Maps.MapTree.tree_range_ref_fails",
    "Actl.Maps.MapTree.tree_filt_filt_fails"
   ],
   "note": "Keys and values are unbounded integers (conversions: C34). The last two theorems state where the traits promise an operation that does not compile."
  },
  {
   "property": "C108",
   "status": "partial",
   "theorems": [
    "Actl.TextTree.buffered_read",
    "Actl.TextTree.memory_read",
    "Actl.TextTree.string_read",
    "Actl.TextTree.buffered_write",
    "Actl.TextTree.buffered_write_short",
    "Actl.TextTree.memory_write",
    "Actl.TextTree.string_write",
    "Actl.TextTree.buffered_roundtrip",
    "Actl.TextTree.string_roundtrip",
    "Actl.TextTree.memory_roundtrip",
    "Actl.TextTree.fresh_read_fails"
   ],
   "note": "Reading is proved in full for memory and string devices and for buffered readers that have been read from; from a new buffered reader nothing is read back (fresh_read_fails, every value and every content). Writing is proved in full for memory and string devices; through a buffered writer the text arrives exactly if no piece ends on a boundary of the buffer behind earlier characters (buffered_write, the defect of C21). The underlying device of a buffered one takes and delivers all characters."
  },
  {
   "property": "C109",
   "status": "partial",
   "theorems": [
    "Actl.Binary.buffered_value",
    "Actl.Binary.memory_value",
    "Actl.Binary.string_value",
    "Actl.Binary.file_value",
    "Actl.Binary.truncated_fails",
    "Actl.Binary.string_written",
    "Actl.Binary.memory_written",
    "Actl.Binary.file_written",
    "Actl.Binary.buffered_written",
    "Actl.Binary.buffered_written_short",
    "Actl.Binary.vector_corrupted",
    "Actl.Binary.string_value_roundtrip",
    "Actl.Binary.memory_value_roundtrip",
    "Actl.Binary.file_value_roundtrip",
    "Actl.Binary.buffered_value_roundtrip"
   ],
   "note": "The calls on the devices are modelled one by one. Proved for string, memory and file devices and for buffered readers; writing through a buffered device is correct exactly if no number ends on a boundary of the buffer while earlier bytes wait (buffered_written), and the claim is false otherwise: every vector of 1-, 2-, 4- or 8-byte numbers that does not fit into a buffer whose size is a multiple of 8 is corrupted (vector_corrupted). Containers without random access that are not empty are appended to (C24)."
  },
  {
   "property": "C110",
   "status": "partial",
   "theorems": [
    "Actl.Traversal.orders_of_tree",
    "Actl.Traversal.DfsTree.unique",
    "Actl.Traversal.inorder_only",
    "Actl.Traversal.inorder_count",
    "Actl.Traversal.inorder_length",
    "Actl.Traversal.inorder_star",
    "Actl.Traversal.inorder_binary",
    "Actl.Traversal.inorder_unsigned_fails"
   ],
   "note": "All clauses proved where char is signed, except the last, which is false of the code: on a binary tree the output is the standard inorder if and only if no vertex has a right child but no left child (inorder_binary, both directions). Where char is unsigned, inorder puts out only the source, for every graph (inorder_unsigned_fails)."
  },
  {
   "property": "C111",
   "status": "partial",
   "theorems": [
    "Actl.Storage.mixed_insert",
    "Actl.Storage.mixed_vertices",
    "Actl.Storage.mixed_nextVertex",
    "Actl.Storage.mixed_edges",
    "Actl.Storage.mixed_graph",
    "Actl.Storage.mixed_dfs",
    "Actl.Storage.mixed_bfs",
    "Actl.Storage.mixed_components",
    "Actl.Storage.mixed_topologicalSort",
    "Actl.Storage.removeVertex_dangling_fails",
    "Actl.Storage.removeVertex_shift_fails",
    "Actl.Storage.Mixed.run_made"
   ],
   "note": "Everything about insertions is proved for all histories. The last sentence is false of the code: remove_vertex erases the element of the vertex only; the edges that lead to it stay and are counted (removeVertex_dangling_fails), and with numbered vertices the ends of edges keep their old numbers (removeVertex_shift_fails). Graphs with an edge container are C138."
  },
  {
   "property": "C112",
   "status": "proved",
   "theorems": [
    "Actl.Traversal.bfs_finds",
    "Actl.Traversal.dfsFrom_finds",
    "Actl.Traversal.dfsAll_terminator"
   ],
   "note": "Terminators of both searches, with the recorders of predecessors and distances.  The whole-graph depth-first search does not stop at a terminator; the theorem states what it does instead."
  },
  {
   "property": "C113",
   "status": "proved",
   "theorems": [
    "Actl.Traversal.dfsFrom_linear",
    "Actl.Traversal.dfs_depth",
    "Actl.Traversal.dfsAll_linear",
    "Actl.Traversal.bfs_linear",
    "Actl.Traversal.dfs_depth_exact",
    "Actl.Traversal.bfs_width_exact"
   ],
   "note": "Iterations are counted by the fuel of the models (the search returns iff the fuel is at least the stated number); stack and queue sizes by counting copies proved equal to the searches.  For the whole-graph search the calls to components are counted."
  },
  {
   "property": "C114",
   "status": "proved",
   "theorems": [
    "Actl.Traversal.bfs_distances_fit",
    "Actl.Traversal.dfsAll_distances_fit",
    "Actl.Traversal.dfsAll_times_fit",
    "Actl.Traversal.dfsAll_components_fit"
   ],
   "note": "Justifies the unbounded integers of the model of the recorders.  Searches without terminator; with one the events are a prefix of these (C112)."
  },
  {
   "property": "C115",
   "status": "proved",
   "theorems": [
    "Actl.Geo.withinMonotone_box",
    "Actl.Geo.withinConvexMonotone_box",
    "Actl.Geo.withinMonotone_int",
    "Actl.Geo.antipodalVertices_box",
    "Actl.Geo.tangentVertices_box",
    "Actl.Geo.withinMonotone_overflow",
    "Actl.Geo.angleLess_box",
    "Actl.Geo.angleLess_overflow"
   ],
   "note": "product(policy, x, y) is declared nowhere in the snapshot, so the width of products is a parameter (as in C103). std::lower_bound as in C63."
  },
  {
   "property": "C116",
   "status": "partial",
   "theorems": [
    "Actl.Rebind.rebind_of",
    "Actl.Rebind.rebind_rebind",
    "Actl.Rebind.rebind_back",
    "Actl.Rebind.rebind_first",
    "Actl.Rebind.rebind_atom",
    "Actl.Rebind.rebindContainer_of",
    "Actl.Rebind.rebindContainer_none",
    "Actl.Rebind.rebind_sequences",
    "Actl.Rebind.rebind_map_fails",
    "Actl.Rebind.rebind_pair_same",
    "Actl.Rebind.rebind_pair"
   ],
   "note": "Proved for every template of the form of Spec/Rebind.lean. False of std::map and hash_map, whose allocator is a template of a pair of the key: for every key and every other target the result has an allocator for the old pairs (rebind_map_fails). Parameters which happen to be the element type change as well (rebind_pair_same)."
  },
  {
   "property": "C117",
   "status": "proved",
   "theorems": [
    "Actl.Lifetime.eval_named",
    "Actl.Lifetime.eval_defined_iff",
    "Actl.Lifetime.eval_dangling_ub",
    "Actl.Lifetime.eval_snapshot",
    "Actl.Lifetime.eval_immediate"
   ],
   "note": "The sizes of types and the triviality of copies of std::tuple are not modelled: every object has an arbitrary answer to is_copy_cheap. Operations in place of arguments (placeholders) are those of C82 and not repeated."
  },
  {
   "property": "C118",
   "status": "partial",
   "theorems": [
    "Actl.TextAssoc.text_assoc",
    "Actl.TextAssoc.read_sets",
    "Actl.TextAssoc.read_maps_fails",
    "Actl.TextAssoc.read_map_one_fails"
   ],
   "note": "The text is proved for all types, reading back for all types without maps. Maps cannot be read back: the key stays a constant in spite of the const_cast (first_type is Key const), so reading does not compile for keys with numbers, vectors or lists, and strings, also in arrays and tuples, are compared with empty ones; after any reading all keys are made of empty strings (read_maps_fails), and a std::map has at most one element (read_map_one_fails)."
  },
  {
   "property": "C119",
   "status": "proved",
   "theorems": [
    "Actl.Geo.winding_simple",
    "Actl.Geo.within_joined",
    "Actl.Geo.within_outside",
    "Actl.Geo.within_inside",
    "Actl.Geo.within_sides"
   ],
   "note": "Exact scalars, unbounded counter (which stays in -1..1 at the end for simple polygons; intermediate values are bounded by the number of vertices)."
  },
  {
   "property": "C120",
   "status": "proved",
   "theorems": [
    "Actl.Geo.orientationSimple_correct",
    "Actl.Geo.orientationSimple_sides",
    "Actl.Geo.orientationSimple_defined"
   ],
   "note": "Exact scalars. point.hpp:174 names an undeclared less_t; the model takes it for the operation less."
  },
  {
   "property": "C121",
   "status": "partial",
   "theorems": [
    "Actl.Geo.addAssign_eq",
    "Actl.Geo.subAssign_eq",
    "Actl.Geo.mulAssign_eq",
    "Actl.Geo.mulAssign_iff_partial",
    "Actl.Geo.divAssign_zero",
    "Actl.Geo.divAssign_eq",
    "Actl.Geo.divAssign_iff_partial",
    "Actl.Geo.divPoint_eq",
    "Actl.Geo.swapPoints_eq"
   ],
   "note": "Exact scalars. That p *= f and p /= f scale by the value f had is false of the code when f is a coordinate of p (the factor is taken by reference and changed on the way); the theorems say exactly when it holds."
  },
  {
   "property": "C122",
   "status": "partial",
   "theorems": [
    "Actl.TensorObj.tensor_programs",
    "Actl.TensorObj.dims_list_fails",
    "Actl.TensorObj.overflow_ub",
    "Actl.TensorObj.moved_size_fails"
   ],
   "note": "Proved for every program that the specification allows. False of the code: a list of dimensions that is too short is read beyond its end and a too long one is cut (dims_list_fails); dimensions whose product exceeds size_t are accepted and leave elements outside the storage (overflow_ub); a tensor that was moved from reports elements it does not have (moved_size_fails). Subscripts that give views are modelled for dimensions in the type only: otherwise they do not compile."
  },
  {
   "property": "C123",
   "status": "partial",
   "theorems": [
    "Actl.IntText.readRealR_relative",
    "Actl.IntText.readRealR_short_eq",
    "Actl.IntText.readRealR_short",
    "Actl.IntText.readRealR_integer",
    "Actl.IntText.encode_readRealR_integer",
    "Actl.IntText.encode_readRealR",
    "Actl.IntText.readRealR_nearest_fails",
    "Actl.IntText.readRealR_buffers_fails"
   ],
   "note": "Proved for every rounding of relative error u (roundBinary_rounding, roundBinary_nat: rounding to prec binary digits is one, with the integers up to 2^prec exact). The last sentence is false of the code: \"0.3\" as double is not read as the nearest number (readRealR_nearest_fails), and \"0.75\" is read exactly from one buffer but not if the buffer ends after \"0.7\" (readRealR_buffers_fails). Overflow to infinity, underflow and fused multiplication and addition are not modelled."
  },
  {
   "property": "C124",
   "status": "partial",
   "theorems": [
    "Actl.RealTree.text_pieces",
    "Actl.RealTree.read_text_close",
    "Actl.RealTree.read_text_close_rest",
    "Actl.RealTree.read_text_close_followed",
    "Actl.RealTree.read_text_fixed",
    "Actl.RealTree.read_text_close_zero_fails",
    "Actl.IntText.roundBinary_accurate"
   ],
   "note": "Writing is proved in full, for every number the type rounds accurately enough (roundBinary_accurate: every number of a binary type with prec digits, if 4 (base^precision + 1) <= 2^prec). Reading back is characterised exactly: a close value is read iff everything but the real numbers survives as in C98; real numbers always survive, zero included, so points, segments and matrices of a fixed size are always read back (read_text_fixed). The full claim is false of the code for a zero integer or an empty container followed by anything (read_text_close_zero_fails). Infinities and not-a-number, which are written as words, are not covered."
  },
  {
   "property": "C125",
   "status": "proved",
   "theorems": [
    "Actl.Geo.orientation_rounded",
    "Actl.Geo.orientation_rounded_equal",
    "Actl.Geo.orientation_grid",
    "Actl.Geo.orientation_binary",
    "Actl.Geo.hull_rounded_safe",
    "Actl.Geo.hull_rounded",
    "Actl.Geo.hull_grid",
    "Actl.Geo.triangle_rounded",
    "Actl.Geo.triangle_grid",
    "Actl.Geo.polygon_rounded",
    "Actl.Geo.polygon_grid",
    "Actl.Geo.polygon_grid_convex",
    "Actl.Geo.area_rounded",
    "Actl.Geo.area_rounded_sign",
    "Actl.Geo.area_grid",
    "Actl.Geo.roundSigned_signed",
    "Actl.Geo.roundSigned_exact",
    "Actl.Geo.orientation_rounded_fails",
    "Actl.Geo.hull_rounded_fails"
   ],
   "note": "Overflow, underflow and fused operations are not in the model. orientation_rounded_fails and hull_rounded_fails show in double what happens when the bound is not met."
  },
  {
   "property": "C126",
   "status": "proved",
   "theorems": [
    "Actl.Geo.sort_by_angle_rounded",
    "Actl.Geo.sort_by_angle_rounded_arg",
    "Actl.Geo.sort_half_rounded",
    "Actl.Geo.angle_rounded",
    "Actl.Geo.angle_rounded_sound",
    "Actl.Geo.angle_rounded_parallel",
    "Actl.Geo.directions_grid",
    "Actl.Geo.roundSigned_mono",
    "Actl.Geo.sort_by_angle_rounded_fails"
   ],
   "note": "sort_by_angle_rounded_fails: three points of double for which the comparison is not a strict weak order. Overflow, underflow and fused operations are not in the model."
  },
  {
   "property": "C127",
   "status": "proved",
   "theorems": [
    "Actl.Numbers.comparisons_exact",
    "Actl.Numbers.comparisons_trichotomy",
    "Actl.Numbers.comparisons_nan",
    "Actl.Numbers.mixed_signs",
    "Actl.Numbers.int_float",
    "Actl.Numbers.sgn_exact",
    "Actl.Numbers.abs_exact",
    "Actl.Numbers.abs_float",
    "Actl.Numbers.max_exact",
    "Actl.Numbers.max_nan",
    "Actl.Numbers.tolerant_ints",
    "Actl.Numbers.tolerant_floats",
    "Actl.Numbers.tolerant_floats_trichotomy",
    "Actl.Numbers.tolerant_floats_special",
    "Actl.Numbers.tolerant_floats_trans",
    "Actl.Numbers.nearest_roundSigned",
    "Actl.Numbers.tolerance_unsigned_fails",
    "Actl.Numbers.comparisons_fail"
   ],
   "note": "Where the common type does not have both values the exact behaviour is given by mixed_signs and int_float; comparisons_fail and tolerance_unsigned_fails show what goes wrong there. NaN is compared as less or equal and greater or equal to everything, and is equal to everything with a tolerance. abs is undefined for the lowest number of int and wider types and negative for that of narrower ones. Not modelled: min (does not compile, see C92), sgn with a tolerance (C82)."
  },
  {
   "property": "C128",
   "status": "proved",
   "theorems": [
    "Actl.Geo.intersect_rounded",
    "Actl.Geo.intersect_grid",
    "Actl.Geo.crosses_grid",
    "Actl.Geo.withinLine_grid",
    "Actl.Geo.distance_rounded",
    "Actl.Geo.intersect_rounded_fails"
   ],
   "note": "No overflow, underflow or fused operations. Without the conditions the claim is false: intersect_rounded_fails gives a computed common point that is not within the segment for the code itself, and two different lines through one point that are reported to coincide."
  },
  {
   "property": "C129",
   "status": "proved",
   "theorems": [
    "Actl.Geo.nearest_rounded",
    "Actl.Geo.nearest_rounded_none_iff",
    "Actl.Geo.nearest_grid",
    "Actl.Geo.maxDistance_rounded",
    "Actl.Geo.maxDistance_grid",
    "Actl.Geo.nearest_rounded_fails"
   ],
   "note": "Every operation rounds with relative error at most u (no overflow or underflow), sqrt is the exact root and then rounded. nearest_rounded_fails: without the allowance for errors the claim is false, three points of double where the pair returned is not a closest one."
  },
  {
   "property": "C130",
   "status": "proved",
   "theorems": [
    "Actl.Geo.within_monotone_safe",
    "Actl.Geo.within_convex_grid",
    "Actl.Geo.within_convex_rounded",
    "Actl.Geo.within_monotone_rounded",
    "Actl.Geo.extreme_safe",
    "Actl.Geo.extreme_grid",
    "Actl.Geo.tangents_grid",
    "Actl.Geo.antipodal_rounded_ub",
    "Actl.Geo.within_convex_rounded_fails"
   ],
   "note": "Every operation rounds with relative error at most u (no overflow or underflow). Negations show that the conditions are needed: for a strictly convex triangle of double antipodal_vertices and max_distance read past the end, and a point outside is classified as on the border."
  },
  {
   "property": "C131",
   "status": "proved",
   "theorems": [
    "Actl.Geo.orientationLine_box",
    "Actl.Geo.withinLine_box",
    "Actl.Geo.intersect_box",
    "Actl.Geo.crosses_box",
    "Actl.Geo.intersect_overflow",
    "Actl.Geo.withinLine_overflow"
   ],
   "note": "product and ratio are declared nowhere in the snapshot: the width of products is a parameter, and so is the ratio with its relative error. For parallel lines the common part is that of exact arithmetic, for which see C55."
  },
  {
   "property": "C132",
   "status": "proved",
   "theorems": [
    "Actl.Geo.projectLine_rounded",
    "Actl.Geo.projectLine_near",
    "Actl.Geo.nearestLine_rounded",
    "Actl.Geo.projectPlane_rounded",
    "Actl.Geo.distancePlane_rounded",
    "Actl.Geo.distanceLine_rounded",
    "Actl.Geo.projectLine_rounded_fails"
   ],
   "note": "The rounding is a function with relative error u, so neither overflow nor underflow. ratio and product, declared nowhere, are the rounded quotient and product."
  },
  {
   "property": "C133",
   "status": "proved",
   "theorems": [
    "Actl.Geo.convexParams_grid",
    "Actl.Geo.simpleParams_grid",
    "Actl.Geo.convexPoints_grid",
    "Actl.Geo.simplePoints_grid",
    "Actl.Geo.convexPoints_exact",
    "Actl.Geo.simplePoints_exact",
    "Actl.Geo.convex_ends",
    "Actl.Geo.convex_rounded_loops"
   ],
   "note": "The rounding is a function with relative error u, without overflow and underflow. The one position follows from the ++ of scalar_to_point_adaptor, which does not advance the iterator inside."
  },
  {
   "property": "C134",
   "status": "proved",
   "theorems": [
    "Actl.Geo.convexParams_box",
    "Actl.Geo.simpleParams_box",
    "Actl.Geo.convexPoints_box",
    "Actl.Geo.simplePoints_box",
    "Actl.Geo.linePolygon_overflow"
   ],
   "note": "ratio, declared nowhere in the code, is a parameter with a relative error; conversions of the coordinates of the two points to the type of ratios are assumed exact in the claims about points."
  },
  {
   "property": "C135",
   "status": "partial",
   "theorems": [
    "Actl.Geo.nearest_int_box",
    "Actl.Geo.nearest_int_closest",
    "Actl.Geo.nearest_int_rounded",
    "Actl.Geo.nearest_int_near",
    "Actl.Geo.nearest_int_none_iff",
    "Actl.Geo.nearest_int_overflow",
    "Actl.Geo.nearest_int_fails",
    "Actl.Geo.root_double",
    "Actl.Geo.maxDistance_int_box",
    "Actl.Geo.maxDistance_int_overflow"
   ],
   "note": "Proved in the range where nothing overflows, and the range is shown to be exact. That the pair is a closest one is proved where different squared distances have different roots (a box of side up to about 2^25 for double) and refuted beyond (nearest_int_fails: 64 bit coordinates, double)."
  },
  {
   "property": "C136",
   "status": "proved",
   "theorems": [
    "Actl.Geo.convexHull_contains",
    "Actl.Geo.convexHull_unique",
    "Actl.Geo.convexHull_set",
    "Actl.Geo.convexHull_idem",
    "Actl.Geo.within_hull",
    "Actl.Geo.maxDistance_hull",
    "Actl.Geo.extremeVertex_hull",
    "Actl.Geo.tangentVertices_hull",
    "Actl.Geo.intersectConvex_hull",
    "Actl.Geo.within_hull_fails",
    "Actl.Geo.convexHull_int_set",
    "Actl.Geo.within_hull_int",
    "Actl.Geo.maxDistance_hull_int",
    "Actl.Geo.tangentVertices_hull_int",
    "Actl.Geo.intersectConvex_hull_int"
   ],
   "note": "The property is stated for points that are not collinear (convexHull_set and convexHull_idem hold for all); within_hull_fails proves that the condition is needed: for collinear points the hull is one point. within is stated for fewer than 2^31 - 1 points, since winding_number uses that number to mean the border."
  },
  {
   "property": "C137",
   "status": "partial",
   "theorems": [
    "Actl.Storage.EdgeList.write_spec",
    "Actl.Storage.AdjC.write_spec",
    "Actl.Storage.AdjN.write_spec",
    "Actl.Storage.edgeList_writes",
    "Actl.Storage.adjC_writes",
    "Actl.Storage.adjN_writes_partial",
    "Actl.Storage.edgeList_writes_read",
    "Actl.Storage.adjC_writes_read",
    "Actl.Storage.adjN_writes_read_partial",
    "Actl.Storage.undirected_write_fails",
    "Actl.Storage.writeVertex_spec",
    "Actl.Storage.writeVertex_fails"
   ],
   "note": "Proved for all programs on edge lists, on adjacency lists with an edge container that is a sequence (any direction), and on directed and bidirectional adjacency lists without one. The full claim is false of undirected adjacency lists without an edge container: the two copies of an edge are assigned separately (undirected_write_fails). In a set of vertices the value is the key and can be assigned without any check (writeVertex_fails); otherwise the container stays consistent (writeVertex_spec). For hashed containers the order of iteration is assumed to depend on the keys only."
  },
  {
   "property": "C138",
   "status": "partial",
   "theorems": [
    "Actl.Storage.mixedC_insert",
    "Actl.Storage.mixedC_vertices",
    "Actl.Storage.mixedC_nextVertex",
    "Actl.Storage.mixedC_edges",
    "Actl.Storage.mixedC_twoEdges",
    "Actl.Storage.mixedC_graph",
    "Actl.Storage.mixedC_dfs",
    "Actl.Storage.mixedC_bfs",
    "Actl.Storage.mixedC_components",
    "Actl.Storage.mixedC_topologicalSort",
    "Actl.Storage.removeVertexC_dangling_fails",
    "Actl.Storage.removeVertexC_shift_fails",
    "Actl.Storage.MixedC.run_made"
   ],
   "note": "Everything about insertions is proved for all histories; edges() needs a vertex unless both ends are stored (AdjC.allEdges_empty_ub, mixedC_twoEdges). The last sentence is false of the code: remove_vertex erases the element of the vertex only; the edges that lead to it stay in the out-edges of the other end and in the edge container (removeVertexC_dangling_fails), and with numbered vertices the ends keep their old numbers (removeVertexC_shift_fails)."
  },
  {
   "property": "C139",
   "status": "proved",
   "theorems": [
    "Actl.Geo.lineKinds",
    "Actl.Geo.make_isSome",
    "Actl.Geo.make_end",
    "Actl.Geo.mk_points",
    "Actl.Geo.mkAnyEnds_points",
    "Actl.Geo.mkSegment_points_iff",
    "Actl.Geo.convert_isSome",
    "Actl.Geo.convert_same",
    "Actl.Geo.lineProgram_points",
    "Actl.Geo.lineProgram_kinds",
    "Actl.Geo.mkSegment_unsigned_fails",
    "Actl.Geo.convert_narrow_fails"
   ],
   "note": "The hypotheses that the types have the differences and the converted values are part of the property; without them the claims about the points are false of the code: a segment of unsigned coordinates towards a smaller coordinate has the right end() but not the points between its ends (mkSegment_unsigned_fails), and a conversion to narrower coordinates changes the points without any assertion (convert_narrow_fails). Coordinates are built-in integers; swap of lines does not compile and the serialization of lines is not modelled."
  },
  {
   "property": "C140",
   "status": "proved",
   "theorems": [
    "Actl.Storage.mixedW_call",
    "Actl.Storage.mixedW_setEdge",
    "Actl.Storage.mixedW_setVertex",
    "Actl.Storage.mixedW_vertices",
    "Actl.Storage.mixedW_edges",
    "Actl.Storage.mixedW_graph",
    "Actl.Storage.mixedW_dfs",
    "Actl.Storage.mixedW_bfs"
   ],
   "note": "Assignments to vertices in sets and multisets are excluded by the statement: they break the order of the container (C137). Removals are not among the steps (C138 shows what they leave behind)."
  },
  {
   "property": "C141",
   "status": "proved",
   "theorems": [
    "Actl.Storage.mixedW_find",
    "Actl.Storage.mixedW_find_none",
    "Actl.Storage.mixedW_find_unique",
    "Actl.Storage.mixedW_degrees"
   ],
   "note": "Holds as stated, including that find_edge of an absent edge is undefined where the out-edges keep the target. degree() itself does not compile (out_edges() is a range of forward iterators without size()), so the numbers of out-edges are those of the range."
  },
  {
   "property": "C142",
   "status": "proved",
   "theorems": [
    "Actl.Storage.mixedW_bridges",
    "Actl.Storage.mixedW_components",
    "Actl.Storage.mixedW_topologicalSort"
   ],
   "note": "Holds as stated. The halves of C49 and C51 that are true of the code are proved for the same programs as mixedW_strong_partial and mixedW_articulation_partial."
  },
  {
   "property": "C143",
   "status": "partial",
   "theorems": [
    "Actl.TextTree.point_text",
    "Actl.TextTree.sphere_text",
    "Actl.TextTree.line_text_fails",
    "Actl.TextTree.anyLine_text_fails",
    "Actl.TextTree.point_read",
    "Actl.TextTree.sphere_read",
    "Actl.TextTree.line_read",
    "Actl.TextTree.line_plain_fails",
    "Actl.Binary.line_bytes",
    "Actl.Binary.sphere_bytes"
   ],
   "note": "The bytes and the text of points, spheres and planes are proved as stated. False of the code: a line, ray or segment is always written with one more separator at its end, because its empty base counts as a unit (line_text_fails); its coordinates without it are never read through spaced (line_plain_fails); an any_line has two separators before its kind (anyLine_text_fails) and cannot be read (reading an enumeration does not compile). Reading back what was written is characterised exactly: it works iff no number but the last unit is zero (point_read, sphere_read, line_read), zero followed by anything being lost as in C98. The headers of geometry do not compile as they stand, for reasons that have nothing to do with serialization."
  },
  {
   "property": "C144",
   "status": "proved",
   "theorems": [
    "Actl.Ranges.filtered_moves",
    "Actl.Ranges.filtered_equal",
    "Actl.Ranges.filtered_members",
    "Actl.Ranges.filtered_nested",
    "Actl.Ranges.filtered_assign",
    "Actl.Ranges.filtered_assign_back",
    "Actl.Ranges.filtered_back_fails"
   ],
   "note": "A program of moves is defined exactly if it stays in the list (filtered_moves, both directions). The last sentence of the statement is proved as filtered_back_fails. Assumed: the range outlives its iterators, predicates are pure."
  },
  {
   "property": "C145",
   "status": "proved",
   "theorems": [
    "Actl.CopyFiltered.copy_filtered_in_place",
    "Actl.CopyFiltered.erase_remove",
    "Actl.CopyFiltered.copy_filtered_next_fails",
    "Actl.CopyFiltered.copy_filtered_to"
   ],
   "note": "The last sentence of the statement is proved as copy_filtered_next_fails; targets further behind the first element that satisfies the predicate are not characterised. Predicates are pure."
  },
  {
   "property": "C146",
   "status": "proved",
   "theorems": [
    "Actl.UnitFlush.units_iff",
    "Actl.UnitFlush.units_single",
    "Actl.UnitFlush.units_short",
    "Actl.UnitFlush.unit_duplicates",
    "Actl.UnitFlush.flushed_write",
    "Actl.UnitFlush.flushed_binary",
    "Actl.UnitFlush.flushed_roundtrip"
   ],
   "note": "The last sentence of the statement is a defect of the buffer (C21) that unit_flush does not cure for units of several calls."
  },
  {
   "property": "C147",
   "status": "proved",
   "theorems": [
    "Actl.Failing.failing_write",
    "Actl.Failing.failing_args",
    "Actl.Failing.failing_binary",
    "Actl.Failing.failing_binary_read",
    "Actl.Failing.buffered_hides"
   ],
   "note": "The last sentence of the statement is a defect: io::buffered ignores what the writes of its base return. Formats with brackets, indentation, adjustment or escapes are not covered."
  },
  {
   "property": "C148",
   "status": "proved",
   "theorems": [
    "Actl.Failing.over_chunks",
    "Actl.Failing.over_full",
    "Actl.Failing.over_success",
    "Actl.Failing.over_gap"
   ],
   "note": "The last sentence of the statement describes a defect: results of the base are dropped."
  },
  {
   "property": "C149",
   "status": "proved",
   "theorems": [
    "Actl.TextTree.read_bounded",
    "Actl.TextTree.read_vec_size",
    "Actl.TextTree.read_seq_size",
    "Actl.TextTree.read_loop_ends",
    "Actl.TextTree.read_string_end"
   ],
   "note": "For targets whose containers that only grow are empty before reading. read_string_end is the exception for strings, part of the statement."
  },
  {
   "property": "C150",
   "status": "proved",
   "theorems": [
    "Actl.Binary.read_success_iff",
    "Actl.Binary.read_failure_iff",
    "Actl.Binary.read_failure_rest",
    "Actl.Binary.read_fixed",
    "Actl.Binary.device_success_iff",
    "Actl.Binary.buffered_success_iff"
   ],
   "note": "Integers: every byte sequence of the right length is a value (not so for bool, whose other representations C++ leaves undefined). Memory is not limited: a size up to 2^64-1 is resized to."
  },
  {
   "property": "C151",
   "status": "proved",
   "theorems": [
    "Actl.BinaryAssoc.read_any_valid",
    "Actl.BinaryAssoc.read_set_content",
    "Actl.BinaryAssoc.read_set_accepts",
    "Actl.TextAssoc.read_any_ordered"
   ],
   "note": "The comparison is any irreflexive, transitive relation. std::set and std::map are the lists of their elements, as in C100."
  },
  {
   "property": "C152",
   "status": "proved",
   "theorems": [
    "Actl.Traversal.searches_agree",
    "Actl.Traversal.Graph.Bridge.articulation"
   ],
   "note": "Partial correctness of the three runs taken together; that each run ends is C48, C50 and C51."
  },
  {
   "property": "C153",
   "status": "proved",
   "theorems": [
    "Actl.Traversal.topologicalSort_any",
    "Actl.Traversal.VisitAll.finish_late",
    "Actl.Traversal.topologicalSort_strong"
   ],
   "note": "The order for acyclic graphs alone is C45."
  },
  {
   "property": "C154",
   "status": "proved",
   "theorems": [
    "Actl.Traversal.bridge_count",
    "Actl.Traversal.count_classes"
   ],
   "note": "That the searches end is C48 and C50."
  },
  {
   "property": "C155",
   "status": "proved",
   "theorems": [
    "Actl.Traversal.bfs_metric",
    "Actl.Traversal.bfs_metric_undirected",
    "Actl.Traversal.bfs_metric_exists",
    "Actl.Traversal.dfs_bfs_agree"
   ],
   "note": "bfs_metric_exists: all the searches end, so the hypothesis about d can be met for every graph."
  },
  {
   "property": "C156",
   "status": "proved",
   "theorems": [
    "Actl.Geo.convexHull_same",
    "Actl.Geo.convexHull_append",
    "Actl.Geo.convexHull_extend",
    "Actl.Geo.convexHull_insert",
    "Actl.Geo.convexHull_moved",
    "Actl.Geo.convexHull_append_fails",
    "Actl.Geo.convexHull_affine"
   ],
   "note": "Exact arithmetic in an ordered field, as for C57. convexHull_append_fails proves the last sentence."
  },
  {
   "property": "C157",
   "status": "proved",
   "theorems": [
    "Actl.Binary.write_split",
    "Actl.Binary.write_prefix",
    "Actl.Binary.writes_prefix",
    "Actl.Binary.writeAll_injective",
    "Actl.Binary.writes_types_fail"
   ],
   "note": "WF bounds the sizes of containers by 2^64 (size_t). writes_types_fail proves the last sentence."
  },
  {
   "property": "C158",
   "status": "proved",
   "theorems": [
    "Actl.Traversal.dfsAll_edges"
   ],
   "note": "That the search ends is C43."
  },
  {
   "property": "C159",
   "status": "proved",
   "theorems": [
    "Actl.TextTree.text_unique",
    "Actl.TextTree.text_words_fail"
   ],
   "note": "The last sentence of the statement, that strings with separators in them have ambiguous texts, is text_words_fail. Values with a zero before the last piece are covered by C160."
  },
  {
   "property": "C160",
   "status": "proved",
   "theorems": [
    "Actl.TextTree.text_prefix"
   ],
   "note": "Shows that the values which C98 finds unreadable (zeros and empty containers before other pieces) are lost by the reader, not by the writer."
  },
  {
   "property": "C161",
   "status": "proved",
   "theorems": [
    "Actl.TextAssoc.text_assoc_prefix",
    "Actl.TextAssoc.text_map_words_fail"
   ],
   "note": "The last sentence of the statement, that strings with colons in them have ambiguous texts, is text_map_words_fail."
  }
 ]
}
