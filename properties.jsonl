{"id": "C01", "title": "LRU cache behaves like a bounded recency list", "statement": "Whatever sequence of insert, get, contains, erase and clear calls is made on an LRU cache of capacity at least 1, every call returns what a reference model returns that keeps the entries in a list ordered by last successful get or first insert: insert of a present key changes nothing, insert into a full cache drops exactly the least recently used entry, and the number of entries never exceeds the capacity.", "quantifier": "every capacity >= 1 and every finite history of operations over every key and value type", "why_tests_cant": "Histories are unbounded; the linked list and the hash index can drift apart only after particular interleavings of erase, evict and get.", "anchors": ["rapidudf/common/lru_cache.h: lru_cache::insert, get, erase, contains, evict, clear, reset_capacity"]}
{"id": "C02", "title": "Cached expression evaluation returns the value of the requested expression", "statement": "eval_expression(source, arg names, args) returns the value of source with each named argument bound to the value passed at that position, regardless of earlier eval_expression calls.", "quantifier": "every history of eval_expression calls over all sources, argument name lists, signatures and values", "why_tests_cant": "A stale cache hit needs a specific earlier call; the set of histories is infinite.", "anchors": ["rapidudf/exec/eval_engine.h: eval_expression", "rapidudf/meta/function.cc: FunctionDesc::CompareSignature"]}
{"id": "C03", "title": "eval_function never calls a destroyed function object", "statement": "A call of eval_function invokes only function objects that are alive at the time of the call.", "quantifier": "every history of eval_function calls, all sources and signatures", "why_tests_cant": "Use after free is invisible to tests unless the memory happens to be reused.", "anchors": ["rapidudf/exec/eval_engine.h: eval_function, EvalFunction::GetFunc"]}
{"id": "C04", "title": "Function registry: first registration wins forever", "statement": "After any sequence of function registrations, looking a name up returns the first function registered under that name, a later registration under the same name reports failure and changes nothing, and names never registered are not found.", "quantifier": "every finite sequence of registrations and every name", "why_tests_cant": "Registration order depends on static initialisation order across translation units.", "anchors": ["rapidudf/meta/function.cc: FunctionFactory::Register, GetFunction, RegisterVectorFunction"]}
{"id": "C05", "title": "Loading a compiled function with the wrong signature is refused", "statement": "CompileFunction<R, Args...> and LoadFunction<R, Args...> succeed only if R and Args equal the declared return and argument types of the compiled function.", "quantifier": "every declared signature and every requested signature", "why_tests_cant": "Tests call with matching signatures; mismatches are silent type confusion.", "anchors": ["rapidudf/compiler/compiler.cc: JitCompiler::VerifyFunctionSignature", "rapidudf/compiler/compiler.h: LoadFunction, CompileFunction"]}
{"id": "C06", "title": "Alignment helpers round up to the next multiple", "statement": "For a power-of-two alignment a and an n for which n + a - 1 does not overflow, align_to(n, a) is the least multiple of a that is >= n; the arena element count helper returns the least multiple of the lane count that is >= n; the byte size helper for n bits returns 8 more than the least number of bytes that hold n bits.", "quantifier": "all 64-bit n, all power-of-two alignments, all positive lane counts", "why_tests_cant": "Bit tricks with wrap-around; 2^64 inputs.", "anchors": ["rapidudf/common/allign.h: align_to, align_ceil", "rapidudf/types/bit.h: get_arena_element_size"]}
{"id": "C07", "title": "Arena allocations are disjoint, aligned and inside a live block", "statement": "Between two resets, the byte ranges returned by the arena are pairwise disjoint, each start is a multiple of the maximal alignment, and each range lies inside a memory block the arena obtained from the system and has not returned.", "quantifier": "every finite sequence of allocate and clear calls with every positive size, every block size configuration and every placement of blocks chosen by the system allocator", "why_tests_cant": "Overlap shows only for particular size sequences crossing block ends and block reuse after clear.", "anchors": ["rapidudf/memory/folly_arena.h: allocate, clear, canReuseExistingBlock", "rapidudf/memory/folly_arena.cc: allocateSlow"]}
{"id": "C08", "title": "Arena byte accounting is exact", "statement": "After any history without a failed allocation, the reported bytes used equal the sum of the rounded sizes allocated since the last clear.", "quantifier": "every finite history of allocate and clear calls", "why_tests_cant": "Unbounded histories.", "anchors": ["rapidudf/memory/folly_arena.h: bytesUsed, totalSize", "rapidudf/memory/folly_arena.cc: allocateSlow"]}
{"id": "C09", "title": "Arena size limit is enforced", "statement": "With a non-zero size limit the memory the arena holds for its large and normal blocks never makes a new block push the total over the limit: the allocation fails instead, and a failed allocation leaves earlier allocations intact.", "quantifier": "every limit and every history", "why_tests_cant": "Boundary arithmetic over unbounded histories.", "anchors": ["rapidudf/memory/folly_arena.cc: allocateSlow"]}
{"id": "C10", "title": "Arena reset reuses memory", "statement": "After clear, repeating a workload of small allocations that previously succeeded obtains no new block from the system.", "quantifier": "every workload and every number of repetitions", "why_tests_cant": "Leaks by growth need long runs.", "anchors": ["rapidudf/memory/folly_arena.h: clear, allocate"]}
{"id": "C11", "title": "LevelDB-style arena allocations are disjoint", "statement": "All byte ranges returned by the second arena implementation are pairwise disjoint and inside blocks it owns, aligned requests are aligned, and the reported memory usage is the sum over blocks of size plus pointer overhead.", "quantifier": "every finite sequence of Allocate and AllocateAligned calls with positive sizes and every block placement", "why_tests_cant": "As for the first arena.", "anchors": ["rapidudf/memory/leveldb_arena.h", "rapidudf/memory/leveldb_arena.cc"]}
{"id": "C12", "title": "Registered cleanups run exactly once, in order", "statement": "Every cleanup registered with the lock-free list before a drain completes runs exactly once, no cleanup runs twice, and cleanups registered by one thread run in the order that thread registered them, for any number of registering threads racing with one draining thread.", "quantifier": "every number of threads, every interleaving of their atomic steps including failed compare-and-swap attempts, every history of drains", "why_tests_cant": "Interleavings are unbounded and racy failures are rare.", "anchors": ["rapidudf/common/AtomicIntrusiveLinkedList.h: insertHead, sweepOnce, sweep"]}
{"id": "C13", "title": "Resetting a context runs cleanups and forgets everything it owned", "statement": "After a context is reset, every object it owned has been destroyed exactly once and no later call on the context returns a pointer to a destroyed object.", "quantifier": "every history of object creation, typed pointer lookups and resets", "why_tests_cant": "Dangling pointers are invisible until reuse.", "anchors": ["rapidudf/context/context.h: GetPtr, New, Own", "rapidudf/context/context.cc: Reset"]}
{"id": "C14", "title": "String views compare equal exactly when their bytes are equal", "statement": "Two string views of any length built from byte sequences compare equal if and only if the byte sequences are identical, whichever of them are stored inline.", "quantifier": "all byte sequences shorter than 2^32", "why_tests_cant": "Prefix, inline and out-of-line cases multiply; all contents matter.", "anchors": ["rapidudf/types/string_view.h: StringView ctor, operator=="]}
{"id": "C15", "title": "String view ordering is lexicographic by unsigned byte", "statement": "compare on two string views is negative, zero or positive exactly as the byte sequences are ordered lexicographically by unsigned byte value with a proper prefix being smaller; the six comparison operators used by scripts agree with it.", "quantifier": "all byte sequences shorter than 2^31", "why_tests_cant": "All contents matter; prefix fast path reads 4 bytes at a time.", "anchors": ["rapidudf/types/string_view.h: compare", "rapidudf/types/string_view.cc: compare_string_view"]}
{"id": "C16", "title": "Case-insensitive prefix and suffix tests ignore case", "statement": "starts_with_ignore_case and ends_with_ignore_case hold exactly when the lower-cased prefix or suffix matches.", "quantifier": "all pairs of strings", "why_tests_cant": "A test with equal case passes.", "anchors": ["rapidudf/types/string_view.h: starts_with_ignore_case, ends_with_ignore_case"]}
{"id": "C17", "title": "Setting one bit of a bit vector changes that bit only", "statement": "Setting element i of a bit vector to v makes element i read v, leaves every other element unchanged, and returns.", "quantifier": "every bit vector content, size, index and value", "why_tests_cant": "Termination fails only for particular byte contents.", "anchors": ["rapidudf/types/vector.h: Vector<Bit>::Set, operator[]", "rapidudf/types/bit.h: bit_set, bit_clear, bits_set"]}
{"id": "C18", "title": "Concurrent bit sets are not lost", "statement": "When several threads set distinct elements of one bit vector concurrently and all calls return, every element set reads the value set.", "quantifier": "every number of threads and every interleaving of their compare-and-swap attempts", "why_tests_cant": "Needs two threads to hit the same byte between load and swap.", "anchors": ["rapidudf/types/vector.h: Vector<Bit>::Set", "rapidudf/table/table.h: Table::Filter with thread pool"]}
{"id": "C19", "title": "Vector headers store sizes faithfully and compiled code reads the same size", "statement": "A vector built with size n and capacity c reports size n and capacity c, and the size read by compiled code from the raw header equals the size reported by the C++ API.", "quantifier": "all n and c", "why_tests_cant": "Bit-field truncation at 2^30.", "anchors": ["rapidudf/types/vector.h: VectorBase", "rapidudf/compiler/value.cc: GetRawVectorSizeValue"]}
{"id": "C20", "title": "Slicing stays inside the vector", "statement": "Slice(pos, len) either fails or returns a view whose elements are elements pos .. pos+len-1 of the original.", "quantifier": "all 32-bit pos and len, all sizes", "why_tests_cant": "Overflow of pos + len.", "anchors": ["rapidudf/types/vector.h: Slice, Resize"]}
{"id": "C21", "title": "Jagged vectors return the rows that were added", "statement": "After adding rows r0..rk to a jagged vector, Get(i) returns r_i.", "quantifier": "all row lists", "why_tests_cant": "Off-by-one in the offset table; any non-trivial test would fail, none exists.", "anchors": ["rapidudf/types/vector2d.h: JaggedVectors, FixedSizeVectors"]}
{"id": "C22", "title": "Dynamic object fields do not overlap", "statement": "For any sequence of field additions to a schema, the storage ranges of distinct fields are disjoint, lie inside the object, and writing one field leaves all others unchanged.", "quantifier": "every sequence of field additions over all field types and every sequence of writes", "why_tests_cant": "Layouts are data dependent.", "anchors": ["rapidudf/types/dyn_object_impl.h", "rapidudf/types/dyn_object_schema.cc: DynObjectSchema::Add, NewObject"]}
{"id": "C23", "title": "Parameter trees resolve names through ancestors", "statement": "Looking up a key in a parameter object returns the value in the nearest object on its parent chain that defines it, and nothing if none does.", "quantifier": "every chain of objects and every key", "why_tests_cant": "Chains are unbounded.", "anchors": ["rapidudf/types/params.h", "rapidudf/types/params.cc"]}
{"id": "C24", "title": "Type descriptors round-trip through their control word", "statement": "The container, pointer flag, two element types and array size stored in a type descriptor are read back unchanged, and two descriptors with the same control word have equal components.", "quantifier": "all component values within the field widths", "why_tests_cant": "2^64 values.", "anchors": ["rapidudf/meta/dtype.h: DType bit fields"]}
{"id": "C25", "title": "Type descriptors are totally ordered", "statement": "The comparison used by ==, < and the promotion rules on type descriptors is a total order, and compares equal only identical descriptors.", "quantifier": "all pairs and triples of descriptors", "why_tests_cant": "2^128 pairs.", "anchors": ["rapidudf/meta/dtype.cc: DType::Compare", "rapidudf/meta/dtype.h: operator==, operator<"]}
{"id": "C26", "title": "Pointer and vector type constructors invert", "statement": "Taking the pointer type of a non-pointer type and then the pointee gives the type back; taking the vector type of a scalar type and then the element gives the scalar type back.", "quantifier": "all descriptors in the stated domain", "why_tests_cant": "Large domain.", "anchors": ["rapidudf/meta/dtype.h: ToPtr, ToSimdVector", "rapidudf/meta/dtype.cc: PtrTo, Elem"]}
{"id": "C27", "title": "Value conversion between primitive types follows C++ conversion", "statement": "convert_to between any two integer primitive types returns the source value converted to the destination type.", "quantifier": "all pairs of primitive types and all source values", "why_tests_cant": "All values times all type pairs.", "anchors": ["rapidudf/meta/dtype.cc: cast_to, convert_to"]}
{"id": "C28", "title": "Tuple arity is reported correctly", "statement": "The reported tuple size of a k-tuple type is k.", "quantifier": "all tuple descriptors", "why_tests_cant": "Only some arities are tested.", "anchors": ["rapidudf/meta/dtype.cc: TupleSize"]}
{"id": "C29", "title": "The lexer always makes progress and its tokens are slices of the source", "statement": "Tokenising any text ends after at most one token per character plus end of input, each token's text is the slice of the source at its position, tokens are in source order and do not overlap, and the characters between tokens are whitespace or comments.", "quantifier": "every byte string", "why_tests_cant": "All inputs, including malformed ones.", "anchors": ["rapidudf/ast/lexer.cc: Next, ReadNumber, ReadString, ReadIdentifierOrKeyword, SkipWhitespaceAndComments"]}
{"id": "C30", "title": "Operator expressions parse with the documented grouping", "statement": "Printing any expression tree built from the operators with the parentheses required by the grammar's precedence levels and parsing the text's tokens yields the same tree.", "quantifier": "every expression tree", "why_tests_cant": "Infinitely many trees.", "anchors": ["rapidudf/ast/grammar.cc: parse_assign_expr, parse_ternary, parse_logic, parse_cmp, parse_additive, parse_multiplicative, parse_power, parse_unary"]}
{"id": "C31", "title": "Source text that is not entirely a program is rejected", "statement": "Parsing a function or expression succeeds only if the whole source text is consumed.", "quantifier": "every token sequence", "why_tests_cant": "Inputs with trailing garbage are infinite.", "anchors": ["rapidudf/ast/grammar.cc: parse_function_ast, parse_expression_ast, parse_functions_ast"]}
{"id": "C32", "title": "Error messages name the right line", "statement": "The line number reported for a source position is one plus the number of newline characters before that position.", "quantifier": "every source and position", "why_tests_cant": "Drift grows with the line number.", "anchors": ["rapidudf/ast/context.cc: GetLineNo, GetErrorLine"]}
{"id": "C33", "title": "break and continue only inside loops", "statement": "A program passes validation only if every break and continue is inside a while body, and validation of loops restores the loop depth.", "quantifier": "every statement tree", "why_tests_cant": "Arbitrary nesting.", "anchors": ["rapidudf/ast/statement.cc: WhileStatement::Validate, BreakStatement::Validate, ContinueStatement::Validate", "rapidudf/ast/context.h: EnterLoop, ExitLoop, IsInLoop"]}
{"id": "C34", "title": "Flattened expressions evaluate like the expression tree", "statement": "For an expression whose built-in functions are called with their number of arguments, evaluating the flattened postfix form on a stack never underflows, ends with exactly one value and yields the value of the tree with operands in source order.", "quantifier": "every expression tree and environment", "why_tests_cant": "Infinitely many trees.", "anchors": ["rapidudf/ast/expression.cc: UnaryExpr::Validate, BinaryExpr::Validate, SelectExpr::Validate", "rapidudf/compiler/compiler_eval.cc: JitCompiler::BuildIR(DType, RPNEvalNodeList)"]}
{"id": "C35", "title": "Integer literals denote themselves", "statement": "An integer literal in a script evaluates to the integer written.", "quantifier": "every decimal literal below 2^63", "why_tests_cant": "Rounding begins at 2^53.", "anchors": ["rapidudf/ast/lexer.cc: ReadNumber", "rapidudf/ast/expression.cc: validate_operand", "rapidudf/compiler/compiler_constants.cc: BuildIR(double)"]}
{"id": "C36", "title": "Compiled control flow follows the source program", "statement": "The control-flow graph produced for a function body has every reachable block ended by exactly one branch, and running it performs the same sequence of condition tests, assignments and return as the structured program.", "quantifier": "every statement tree, every behaviour of the conditions", "why_tests_cant": "Arbitrary nesting of if, elif, else, while, break, continue, return.", "anchors": ["rapidudf/compiler/compiler_statements.cc", "rapidudf/compiler/codegen.cc: NewLoop, AddLoopCond, FinishLoop, NewCondition, BeginIf, EndIf, BeginElif, EndElifCond, EndElif, BeginElse, EndElse, FinishCondition, BreakLoop, ContinueLoop, Return"]}
{"id": "C37", "title": "Variables are independent", "statement": "After var b = a, assigning to b does not change a.", "quantifier": "every straight-line program of definitions and assignments", "why_tests_cant": "Only programs that mutate after copying show it.", "anchors": ["rapidudf/compiler/value.cc: Value::CopyFrom", "rapidudf/compiler/codegen_value.cc: NewVoid", "rapidudf/compiler/codegen_binary.cc: BinaryOp"]}
{"id": "C38", "title": "Unselected operands are not evaluated", "statement": "c ? x : y, a && b and a || b behave as if only the operands needed by left-to-right short-circuit evaluation were evaluated.", "quantifier": "every expression and environment", "why_tests_cant": "Shows only when the unneeded operand traps or has effects.", "anchors": ["rapidudf/compiler/compiler_eval.cc: JitCompiler::BuildIR", "rapidudf/compiler/codegen_ternary.cc: OP_CONDITIONAL", "rapidudf/compiler/codegen_binary.cc: OP_LOGIC_AND, OP_LOGIC_OR"]}
{"id": "C39", "title": "Vector expressions are element-wise", "statement": "For input vectors of equal size n the compiled vector expression returns a vector of size n whose element i is the scalar expression applied to the elements i, and it neither reads nor writes outside the vectors.", "quantifier": "every expression, every n including 0 and non-multiples of the block size, all contents", "why_tests_cant": "All sizes and contents; padding lanes act only in the tail block.", "anchors": ["rapidudf/compiler/compiler_eval.cc: BuildVectorIR, BuildVectorEvalIR", "rapidudf/compiler/codegen_vector.cc: LoadVector, LoadNVector, StoreVector, StoreNVector"]}
{"id": "C40", "title": "Bit vector tail blocks stay inside their buffer", "statement": "For a bit vector allocated by the context, the 8-byte loads and stores of the block loop at every cursor, including the tail, lie inside the allocated buffer.", "quantifier": "every size", "why_tests_cant": "All sizes.", "anchors": ["rapidudf/types/bit.h: get_bits_byte_size", "rapidudf/compiler/codegen_vector.cc: LoadNVector, StoreNVector", "rapidudf/context/context.h: NewEmptyVector"]}
{"id": "C41", "title": "Scalar subexpressions keep their value inside vector expressions", "statement": "A scalar subexpression of a vector expression has the value it would have on its own.", "quantifier": "every mixed expression and environment", "why_tests_cant": "Needs overflow or division in a scalar part of a mixed expression.", "anchors": ["rapidudf/compiler/compiler_eval.cc: BuildVectorIR normalize_operand_dtype"]}
{"id": "C42", "title": "Argument passing agrees with the platform calling convention", "statement": "An argument is passed in memory by compiled code exactly when the System V x86-64 convention passes it in memory.", "quantifier": "every argument list", "why_tests_cant": "All argument lists.", "anchors": ["rapidudf/meta/function.cc: FunctionDesc::PassArgByValue"]}
{"id": "C43", "title": "The implicit context argument is inserted at its place", "statement": "Calling a function that takes a context with the context omitted passes the caller's context at the declared position and the given arguments, in order, at the others; any other argument count mismatch is an error.", "quantifier": "every signature and argument list", "why_tests_cant": "All signatures.", "anchors": ["rapidudf/compiler/codegen.cc: CodeGen::CallFunction", "rapidudf/meta/function.cc: FunctionDesc::Init"]}
{"id": "C44", "title": "Numeric casts in compiled code preserve representable values", "statement": "An implicit integer-to-integer cast emitted by the compiler preserves the value whenever it is representable in the destination type, and the common type chosen for two integer operands is the wider of the two types in the promotion order.", "quantifier": "all integer types and values", "why_tests_cant": "All pairs and values.", "anchors": ["rapidudf/compiler/codegen_cast.cc: CastTo", "rapidudf/compiler/codegen.cc: NormalizeDType"]}
{"id": "C45", "title": "Sum does not depend on the SIMD width", "statement": "The integer sum of a vector equals the sum of its elements modulo 2^w for every lane count.", "quantifier": "all vectors, all lane counts", "why_tests_cant": "Every hardware width and length.", "anchors": ["rapidudf/functions/simd/vector_misc.cc: simd_vector_sum_impl"]}
{"id": "C46", "title": "Minimum and maximum do not depend on the SIMD width", "statement": "reduce_max and reduce_min return the greatest and least element of a non-empty vector for every lane count.", "quantifier": "all non-empty vectors, all lane counts", "why_tests_cant": "As above.", "anchors": ["rapidudf/functions/simd/vector_misc.cc: reduce_max, reduce_min"]}
{"id": "C47", "title": "find returns the first matching index", "statement": "find returns the least index whose element equals the target and -1 if there is none, for every lane count.", "quantifier": "all vectors, targets, lane counts", "why_tests_cant": "As above.", "anchors": ["rapidudf/functions/simd/vector_misc.cc: simd_vector_find"]}
{"id": "C48", "title": "gather is index-wise and safe", "statement": "gather returns for every index the element at that index, and a default value for an index outside the vector, without reading outside it.", "quantifier": "all vectors, index vectors, lane counts", "why_tests_cant": "Out-of-range reads depend on the position of the bad index relative to block boundaries.", "anchors": ["rapidudf/functions/simd/vector_misc.cc: gather_impl, simd_vector_gather"]}
{"id": "C49", "title": "filter keeps exactly the selected elements in order", "statement": "filter returns the elements whose mask bit is set, in their original order, for every lane count.", "quantifier": "all vectors, masks and lane counts", "why_tests_cant": "Compress-store with two code paths.", "anchors": ["rapidudf/functions/simd/vector_misc.cc: filter_impl, get_mask_bits, simd_vector_filter"]}
{"id": "C50", "title": "Byte match masks mark exactly the matching positions", "statement": "The 64-bit match mask has bit i set exactly when i is below the length and byte i matches.", "quantifier": "all inputs up to 64 bytes, all lane counts", "why_tests_cant": "Only zero bytes expose the padding.", "anchors": ["rapidudf/functions/simd/vector_misc.cc: match_impl"]}
{"id": "C51", "title": "average is defined for every non-empty vector", "statement": "avg returns sum divided by the number of elements for every non-empty vector.", "quantifier": "all element types and sizes", "why_tests_cant": "Only sizes that are multiples of 2^w trap.", "anchors": ["rapidudf/functions/simd/vector_misc.cc: simd_vector_avg"]}
{"id": "C52", "title": "Counting set bits is exact", "statement": "count_true returns the number of set elements of a bit vector.", "quantifier": "all bit vectors, all lane counts", "why_tests_cant": "Wrap-around in the 8-bit accumulation appears only for dense vectors on wide hardware.", "anchors": ["rapidudf/functions/simd/bits.cc: simd_vector_bits_count_true"]}
{"id": "C53", "title": "Bitwise operations on bit vectors are element-wise and keep padding clear", "statement": "not, and, or and xor on bit vectors are element-wise, and bits past the size are zero in the result.", "quantifier": "all bit vectors, all lane counts", "why_tests_cant": "Padding bits are invisible to element reads.", "anchors": ["rapidudf/functions/simd/bits.cc: simd_vector_bits_not, simd_vector_bits_and/or/xor"]}
{"id": "C54", "title": "find_char returns the first position of a character", "statement": "find_char returns the least position of the character and -1 if absent for every lane count.", "quantifier": "all strings, characters, lane counts", "why_tests_cant": "As above.", "anchors": ["rapidudf/functions/simd/string.cc: simd_string_find_char"]}
{"id": "C55", "title": "find_string returns the first occurrence of a substring", "statement": "find_string returns the least position at which the pattern occurs and -1 if it does not.", "quantifier": "all strings, non-empty patterns, lane counts", "why_tests_cant": "Depends on the position of the match relative to the block.", "anchors": ["rapidudf/functions/simd/string.cc: simd_string_find_string_impl"]}
{"id": "C56", "title": "Splitting and joining are inverse up to empty pieces", "statement": "split_by_char returns the maximal runs without the separator, in order, dropping empty ones, for every lane count.", "quantifier": "all strings and separators", "why_tests_cant": "Unbounded inputs.", "anchors": ["rapidudf/functions/simd/string.cc: simd_string_split_by_char"]}
{"id": "C57", "title": "Bottom-k and top-k selection return the right indices", "statement": "The descending index selection derived from the ascending one returns, in its first k entries, indices of the k greatest elements.", "quantifier": "all vectors and k, for every ascending selection meeting the library contract", "why_tests_cant": "All inputs.", "anchors": ["rapidudf/functions/simd/vector_sort.cc: argselect"]}
{"id": "C58", "title": "Table filter and split keep rows aligned and ordered", "statement": "Filtering a table keeps exactly the selected rows in order in every column and row group; splitting by a mask yields two tables that partition the rows.", "quantifier": "all tables and masks", "why_tests_cant": "All masks.", "anchors": ["rapidudf/table/table.cc: Filter, Split", "rapidudf/table/row.cc: Rows::Filter"]}
{"id": "C59", "title": "Head and Tail return the first and last k rows", "statement": "Head(k) returns the first min(k, n) rows and Tail(k) the last min(k, n) rows.", "quantifier": "all tables and k including 0", "why_tests_cant": "Boundary k.", "anchors": ["rapidudf/table/table.cc: Head, Tail", "rapidudf/table/row.cc: Rows::Truncate"]}
{"id": "C60", "title": "Group-by partitions the rows", "statement": "The groups returned by group_by are non-empty, pairwise disjoint, cover all rows, agree on the key inside a group and differ across groups.", "quantifier": "all tables and key columns", "why_tests_cant": "All contents.", "anchors": ["rapidudf/table/table.cc: GroupBy"]}
{"id": "C61", "title": "Dedup keeps the first k rows of every key", "statement": "dedup by a column with limit k keeps exactly the rows that are among the first k with their key, in order.", "quantifier": "all tables and k", "why_tests_cant": "All contents.", "anchors": ["rapidudf/table/table.cc: Dedup"]}
{"id": "C62", "title": "Distinct by several columns keeps one row per combination", "statement": "distinct on several columns keeps at least one row for every combination of values present, and no two kept rows agree on all the columns.", "quantifier": "all tables and column sets", "why_tests_cant": "Only tables with partially equal rows expose it.", "anchors": ["rapidudf/table/table.cc: Distinct, DistinctByColumns"]}
{"id": "C63", "title": "Concatenation appends rows", "statement": "Concat and Merge of tables with the same schema return the rows of the first followed by the rows of the second, merged by key for Merge.", "quantifier": "all tables", "why_tests_cant": "All contents.", "anchors": ["rapidudf/table/table.cc: Concat, DoConcat", "rapidudf/table/table.h: Merge, Distinct"]}
{"id": "C64", "title": "Adding rows is all or nothing", "statement": "Adding or inserting rows either succeeds with every row group grown by the same number of rows or fails leaving the table unchanged; in all reachable states all row groups have the same length.", "quantifier": "all histories of row additions, insertions, failures", "why_tests_cant": "Needs a failure in a later group.", "anchors": ["rapidudf/table/table.cc: DoAddRows, InsertRow"]}
{"id": "C65", "title": "Foreach visits rows in order and stops when told", "statement": "Foreach visits exactly the selected rows in ascending order until the visitor asks to stop.", "quantifier": "all masks and visitors", "why_tests_cant": "All visitors.", "anchors": ["rapidudf/table/table.h: Foreach, HandleIteratorValue"]}
{"id": "C66", "title": "Column selection options", "statement": "A column is exposed exactly when it is in the include list if that list is non-empty, and otherwise not in the exclude list.", "quantifier": "all lists and names", "why_tests_cant": "All combinations.", "anchors": ["rapidudf/table/table_schema.cc: TableColumnOptions::IsAllowed"]}
{"id": "C67", "title": "Parallel loops run every index exactly once", "statement": "Run(begin, end, f) calls f exactly once for every index in [begin, end), for every worker count and any executor that runs each submitted task once.", "quantifier": "all ranges, worker counts", "why_tests_cant": "All range/worker combinations.", "anchors": ["rapidudf/executors/thread_pool.h: ThreadPool::Plan, Run"]}
{"id": "C68", "title": "Parallel loops return only after all calls finished, and do return", "statement": "Run returns only after every call of f has finished, and if every submitted task eventually runs then Run eventually returns.", "quantifier": "every interleaving of workers and the waiting thread", "why_tests_cant": "Interleavings.", "anchors": ["rapidudf/executors/thread_pool.h: PoolBarrier, Run"]}
{"id": "C69", "title": "Nested parallel loops on one pool complete", "statement": "A call of Run made from inside a task of the same pool completes.", "quantifier": "every pool size and nesting", "why_tests_cant": "Deadlock needs all workers inside nested calls.", "anchors": ["rapidudf/executors/thread_pool.h: ThreadPool::Run, Plan"]}
{"id": "C70", "title": "Thread-cached caches are isolated", "statement": "A thread using a thread-cached cache sees exactly what it would see with a private cache: calls of other threads never change its results. GetOrInsert calls its function only when the thread's own cache lacks the key, and a repeated call returns the same value without calling it.", "quantifier": "every interleaving of calls of any number of threads", "why_tests_cant": "All interleavings and histories.", "anchors": ["rapidudf/common/lru_cache.h: ThreadCachedLRU"]}
{"id": "C71", "title": "iota produces consecutive values", "statement": "iota(start, n) returns n elements, element i being start + i in the element type, and writes nothing outside the result.", "quantifier": "all starts, lengths and lane counts", "why_tests_cant": "All lengths and lane counts.", "anchors": ["rapidudf/functions/simd/vector_misc.cc: simd_vector_iota_impl"]}
{"id": "C72", "title": "Distinct C++ types have distinct descriptors", "statement": "get_dtype gives different descriptors to different C++ types built from fundamental types, registered classes, pointers, arrays, vectors, sets, spans, maps, pairs and tuples.", "quantifier": "all types in the stated grammar, to any nesting depth", "why_tests_cant": "Nesting is unbounded; a collision makes two signatures interchangeable.", "anchors": ["rapidudf/meta/dtype.h: get_dtype, DType"]}
{"id": "C73", "title": "Element types of collection descriptors are the element types", "statement": "The element descriptor of a vector, set or span type equals the descriptor of its element type, and the key and value descriptors of a map type equal those of its key and value types.", "quantifier": "all types in the stated grammar", "why_tests_cant": "Nesting is unbounded.", "anchors": ["rapidudf/meta/dtype.cc: DType::Elem, DType::Key"]}
{"id": "C74", "title": "Columns show the table's current rows", "statement": "Reading a column of a table returns one value per row, in row order, of the rows the table has at that moment; a vector set as a column is what later reads of that column return until it is replaced.", "quantifier": "all histories of row additions, row insertions, column reads and column writes", "why_tests_cant": "Only histories that change rows after a column has been read expose it.", "anchors": ["rapidudf/table/table.h: Get, Set", "rapidudf/table/table.cc: LoadColumn, UnloadAllColumns"]}
{"id": "C75", "title": "OrderBy and Topk return rows in key order", "statement": "OrderBy returns all rows of the table rearranged so that their keys are in the requested order; Topk(k) returns the first min(k, n) of them. Key vectors of another length and read-only key vectors are refused.", "quantifier": "all tables, keys and k, for every sort meeting the library contract", "why_tests_cant": "All contents and permutations.", "anchors": ["rapidudf/table/table.cc: OrderBy, Topk", "rapidudf/functions/simd/vector_sort.cc: sort_key_value, topk_key_value"]}
{"id": "C76", "title": "Ordering a table leaves it unchanged", "statement": "After OrderBy or Topk the table they were called on still returns the same rows and the same columns.", "quantifier": "all tables and keys", "why_tests_cant": "Needs reading the source table afterwards.", "anchors": ["rapidudf/table/table.cc: OrderBy, Topk"]}
{"id": "C77", "title": "Map and FlatMap collect the results in row order", "statement": "Map returns the non-null results of the function over the rows in row order, FlatMap the elements of the returned sequences in row order.", "quantifier": "all tables and functions", "why_tests_cant": "All functions.", "anchors": ["rapidudf/table/table.h: Map, FlatMap"]}
{"id": "C78", "title": "The mask of Filter tells which rows satisfy the predicate", "statement": "Filter(f) builds a mask whose bit i is the value of f on row i, with and without a thread pool.", "quantifier": "all tables, predicates, pools and interleavings", "why_tests_cant": "Races depend on the schedule.", "anchors": ["rapidudf/table/table.h: Filter, DoFilter"]}
{"id": "C79", "title": "Rows inside a group keep the table's order", "statement": "Inside every table returned by GroupBy the rows are in the order they had in the source table.", "quantifier": "all tables and keys", "why_tests_cant": "All contents.", "anchors": ["rapidudf/table/table.h: GroupBy", "rapidudf/table/table.cc: GroupBy"]}
{"id": "C80", "title": "A cached expression is compiled once", "statement": "While an expression's source is in the cache, evaluating it again with a signature it has been evaluated with before does not compile it again.", "quantifier": "every history of eval_expression calls", "why_tests_cant": "Needs histories with several signatures for one source.", "anchors": ["rapidudf/exec/eval_engine.h: eval_expression"]}
{"id": "C81", "title": "Evaluation may be nested", "statement": "A registered C++ function called from an evaluated expression may itself evaluate an expression, and the inner evaluation returns.", "quantifier": "all histories and nested calls", "why_tests_cant": "Only calls found in the cache hold the lock.", "anchors": ["rapidudf/exec/eval_engine.h: eval_expression, eval_function"]}
{"id": "C82", "title": "eval_function runs a function of its own source", "statement": "A value returned by eval_function was computed by a function defined in the given source with the requested signature, regardless of earlier calls of eval_function and eval_expression.", "quantifier": "every history of calls of both functions", "why_tests_cant": "Needs a history mixing both functions.", "anchors": ["rapidudf/exec/eval_engine.h: eval_function, eval_expression, get_eval_cache"]}
{"id": "C83", "title": "Token texts determine the source up to spacing", "statement": "Writing the texts of a program's tokens one after another, separated by spaces, and tokenising the result gives the same tokens; the tokens' texts are the source without whitespace and comments.", "quantifier": "every source text and every list of tokens", "why_tests_cant": "All texts.", "anchors": ["rapidudf/ast/lexer.cc: Next"]}
{"id": "C84", "title": "The conditional operator needs no spaces", "statement": "`c ? a : b` means the same with and without spaces around the colon.", "quantifier": "all operands", "why_tests_cant": "Any operand can precede the colon.", "anchors": ["rapidudf/ast/lexer.cc: ReadIdentifierOrKeyword", "rapidudf/ast/grammar.cc: parse_ternary"]}
{"id": "C85", "title": "Parsing ends on every input", "statement": "Parsing any token sequence as an expression, a function or a list of functions returns a tree or an error.", "quantifier": "every token sequence", "why_tests_cant": "Non-termination on some input cannot be excluded by tests.", "anchors": ["rapidudf/ast/grammar.cc: parse_expression_ast, parse_function_ast, parse_functions_ast"]}
{"id": "C86", "title": "No part of an accepted program is dropped", "statement": "When a function body is accepted, every statement written in it is in the tree that is compiled.", "quantifier": "every token sequence", "why_tests_cant": "All programs.", "anchors": ["rapidudf/ast/grammar.cc: parse_statement, parse_block"]}
{"id": "C87", "title": "An index literal denotes its value", "statement": "In `x[...]` a literal index means the integer written, as everywhere else in the language.", "quantifier": "every numeral token", "why_tests_cant": "All numerals.", "anchors": ["rapidudf/ast/grammar.cc: parse_dynamic_param_access"]}
{"id": "C88", "title": "A built-in function called with a wrong number of arguments is refused", "statement": "An expression in which a built-in function is called with more or fewer arguments than it takes is not accepted.", "quantifier": "every expression", "why_tests_cant": "All nestings of calls.", "anchors": ["rapidudf/ast/expression.cc: VarAccessor::Validate", "rapidudf/compiler/compiler_eval.cc: BuildIR"]}
{"id": "C89", "title": "A return statement is checked against its own function", "statement": "A program is accepted only if every return statement returns a value convertible to the return type of the function it stands in, and is not refused when it does.", "quantifier": "all lists of functions", "why_tests_cant": "All lists.", "anchors": ["rapidudf/ast/statement.cc: ReturnStatement::Validate", "rapidudf/ast/context.h: GetFuncReturnDType"]}
{"id": "C90", "title": "A suffixed integer literal has the value written or is refused", "statement": "`n_T` for an integer type T is accepted only if n is a value of T, and then means n.", "quantifier": "every numeral and every integer suffix", "why_tests_cant": "All numerals.", "anchors": ["rapidudf/ast/lexer.cc: ReadNumber", "rapidudf/compiler/compiler_constants.cc: BuildIR"]}
{"id": "C91", "title": "A literal with a decimal point is a floating point number", "statement": "A literal written with a decimal point and without suffix has a floating point type.", "quantifier": "every numeral", "why_tests_cant": "All numerals.", "anchors": ["rapidudf/ast/expression.cc: validate_operand"]}
{"id": "C92", "title": "A function with a return type returns a value it computed", "statement": "Calling a compiled function whose return type is not void gives the value of one of its return statements.", "quantifier": "every accepted function body, every input", "why_tests_cant": "All paths through all bodies.", "anchors": ["rapidudf/ast/statement.cc: ReturnStatement::Validate", "rapidudf/compiler/codegen.cc: FinishFunction, Return", "rapidudf/ast/function.cc: Validate"]}
{"id": "C93", "title": "Operands are evaluated in written order", "statement": "Evaluating an expression evaluates its operands from left to right, each exactly once: calls happen in written order with the current values of their arguments, and assignments inside the expression are seen by the operands to their right and not by those to their left.", "quantifier": "every scalar expression, environment and state of the outside world", "why_tests_cant": "All expressions with nested calls and assignments.", "anchors": ["rapidudf/compiler/compiler_eval.cc: JitCompiler::BuildIR", "rapidudf/compiler/codegen.cc: CallFunction", "rapidudf/compiler/value.cc: LoadValue"]}
{"id": "C94", "title": "Exactly the well-typed expressions are compiled", "statement": "An expression of literals, variables, operators, assignments, conditionals and calls is translated exactly if it has a type: every operator, conversion and function it uses is defined on the types of its operands, and every assignment names a variable of the type of its value; its value has that type. A sequence of definitions, assignments and expressions is translated exactly if each has a type given the definitions before it.", "quantifier": "every such expression and sequence of statements (definitions that do not mention the name they define), every declaration of variables and functions", "why_tests_cant": "All expressions and all typings.", "anchors": ["rapidudf/compiler/codegen_binary.cc: BinaryOp", "rapidudf/compiler/codegen.cc: NormalizeDType, CallFunction", "rapidudf/compiler/codegen_cast.cc: CastTo"]}
{"id": "C95", "title": "Comparisons of integers are right", "statement": "Comparing two integers of any integer types with ==, !=, <, <=, >, >= gives the answer for the numbers they hold.", "quantifier": "all pairs of integer types, all values", "why_tests_cant": "64 pairs of types and all values; the boundary between signed and unsigned.", "anchors": ["rapidudf/compiler/codegen_binary.cc: BinaryOp", "rapidudf/compiler/codegen.cc: NormalizeDType", "rapidudf/compiler/codegen_cast.cc: CastTo", "rapidudf/meta/dtype_enums.h: FundamentalType"]}
{"id": "C96", "title": "Integer arithmetic is exact or wraps", "statement": "+, -, * and max, min, /, % on integers give the mathematical result whenever the type of the result can represent it; + - * wrap otherwise; / rounds towards zero and % has the sign of the dividend; only division by zero and the smallest number divided by -1 are undefined.", "quantifier": "all integer types, all values", "why_tests_cant": "All values of eight types.", "anchors": ["rapidudf/compiler/codegen_binary.cc: BinaryOp"]}
{"id": "C97", "title": "Negation and absolute value", "statement": "-x is the opposite of x and abs(x) its absolute value, except for the smallest number of a signed type, which both leave unchanged.", "quantifier": "all integer types, all values", "why_tests_cant": "All values of eight types.", "anchors": ["rapidudf/compiler/codegen_unary.cc: UnaryOp"]}
{"id": "C98", "title": "Vector operators take their number of operands", "statement": "An operator or built-in function applied to vectors with more or fewer arguments than it takes is refused when the expression is compiled.", "quantifier": "every vector expression", "why_tests_cant": "All expressions.", "anchors": ["rapidudf/compiler/compiler_eval.cc: BuildVectorIR, BuildVectorEvalIR", "rapidudf/ast/expression.cc: VarAccessor::Validate"]}
{"id": "C99", "title": "A call of a vector function is an operand like any other", "statement": "Where a vector may stand as operand of an operator, the result of a vector function may stand, with the same meaning.", "quantifier": "every vector expression with calls of vector functions", "why_tests_cant": "All positions of calls in expressions.", "anchors": ["rapidudf/compiler/compiler_eval.cc: BuildVectorIR"]}
{"id": "C100", "title": "Slices of bit vectors can be used like bit vectors", "statement": "A vector expression over a slice of a bit vector touches no memory outside the buffer the slice was taken from.", "quantifier": "every size, every accepted position and length", "why_tests_cant": "All slices.", "anchors": ["rapidudf/types/vector.h: Vector::Slice", "rapidudf/compiler/codegen_vector.cc: LoadNVector", "rapidudf/context/context.h: NewEmptyVector"]}
{"id": "C101", "title": "A new vector has room for its elements", "statement": "The buffer of a vector made by the context for n elements is large enough for n elements.", "quantifier": "every element size, every n a vector can have", "why_tests_cant": "Sizes of gigabytes.", "anchors": ["rapidudf/context/context.h: NewEmptyVector", "rapidudf/common/allign.h: align_to"]}
{"id": "C102", "title": "A compiler object can be used again and again", "statement": "Whether a source, a function or an expression is compiled, and to what, does not depend on what the same compiler object was given before.", "quantifier": "every sequence of requests to one compiler, every request after it", "why_tests_cant": "All histories of a compiler.", "anchors": ["rapidudf/compiler/compiler.cc: CompileSource, CompileFunction, CompileExpression", "rapidudf/ast/context.h: ParseContext", "rapidudf/ast/context.cc: Clear, SetSource, CheckFuncExist"]}
{"id": "C103", "title": "Exactly the well-scoped scripts are compiled", "statement": "A script is compiled if and only if its functions have different names, variables are defined once and before they are used, and called functions are written above, the function itself or registered; a function that needs a Context is called only where there is one; and each call is checked against the function meant.", "quantifier": "every script (functions, variables, calls), every set of registered functions and operators, every history", "why_tests_cant": "All scripts.", "anchors": ["rapidudf/ast/context.cc: CheckFuncExist, AddLocalVar, IsVarExist", "rapidudf/ast/expression.cc: VarAccessor::Validate", "rapidudf/functions/functions.cc: get_buitin_func_op", "rapidudf/compiler/compiler.cc: CompileSource"]}
{"id": "C104", "title": "A call runs the function it was checked against", "statement": "Every call in compiled code runs the function against whose types it was checked, and loading a function of a script by its name gives that function.", "quantifier": "every script, every set of registered functions", "why_tests_cant": "All scripts.", "anchors": ["rapidudf/compiler/codegen.cc: DeclareExternFunctions, DefineFunction, CallFunction", "rapidudf/compiler/compiler.cc: CompileSource, GetFunc"]}
{"id": "C105", "title": "Chains of accesses", "statement": "A chain of field and bracket accesses like v.f[0] is compiled whenever each access fits the type reached, and each access is done with the accessor of that type.", "quantifier": "every type, every chain of accesses", "why_tests_cant": "All chains.", "anchors": ["rapidudf/ast/expression.cc: VarAccessor::Validate", "rapidudf/compiler/compiler_expressions.cc: BuildIR(VarAccessor)"]}
{"id": "C106", "title": "Searching std::vector objects from scripts", "statement": "find on a std::vector gives the first place of an element equal to the argument, or a negative number if there is none; contains says whether there is one.", "quantifier": "every element type, every vector, every argument", "why_tests_cant": "All vectors and element types.", "anchors": ["rapidudf/reflect/stl.h: VectorHelper::find, VectorHelper::contains"]}
{"id": "C107", "title": "Reading and writing std::vector objects from scripts", "statement": "get and set reach exactly the element at the given place; outside, get reports an error and set changes nothing; add appends; a null vector is reported by every method.", "quantifier": "every vector, place and value", "why_tests_cant": "All vectors.", "anchors": ["rapidudf/reflect/stl.h: VectorHelper::get, set, add, size, THROW_NULL_POINTER_ERR"]}
{"id": "C108", "title": "Maps and sets from scripts", "statement": "insert of a new key makes the map give the value at this key and leaves other keys alone, insert of a known key changes nothing; get of a missing key gives a usable default value.", "quantifier": "every map, key and value", "why_tests_cant": "All maps and sequences of insertions.", "anchors": ["rapidudf/reflect/stl.h: MapHelper, SetHelper"]}
{"id": "C109", "title": "Splitting a string at a string", "statement": "Splitting a string at a separator gives, in order, the non-empty parts between the occurrences of the separator looked for from left to right.", "quantifier": "every string, every non-empty separator, every number of lanes", "why_tests_cant": "All strings and separators.", "anchors": ["rapidudf/functions/simd/string.cc: simd_string_split_by_string, simd_string_split_by_string_impl"]}
{"id": "C110", "title": "Comparing vectors of strings", "statement": "Comparing a block of 64 pairs of strings writes 64 bits, bit j being the result of the operator on pair j in byte-wise lexicographic order, and touches nothing else.", "quantifier": "every operator, every 64 pairs of strings, every prior content of the result", "why_tests_cant": "All strings and lanes.", "anchors": ["rapidudf/functions/strings.cc: compare_string_views"]}
{"id": "C111", "title": "One arena shared by several threads", "statement": "Threads can allocate from one context's arena at the same time: no two blocks share a byte, and Reset, MemoryUsage and destruction reach every block handed out exactly once.", "quantifier": "every number of threads, every interleaving of allocations, resets and usage queries", "why_tests_cant": "All interleavings.", "anchors": ["rapidudf/memory/arena.cc: ThreadCachedArena::GetArena, Reset, MemoryUsage", "rapidudf/memory/arena.h: ThreadCachedArena"]}
{"id": "C112", "title": "Comparing floating point numbers", "statement": "The six comparison operators on two floating point numbers of one type give what the comparison of their values gives; with a NaN every comparison is false except !=, which is true.", "quantifier": "every format (f16, f32, f64 and any other), every pair of bit patterns including zeros of both signs, infinities, subnormals and NaNs, every operator", "why_tests_cant": "2^128 pairs for f64.", "anchors": ["rapidudf/compiler/codegen_binary.cc: CodeGen::BinaryOp"]}
{"id": "C113", "title": "Comparing an integer with a floating point number", "statement": "Comparing an integer with a floating point number gives what the comparison of their exact values gives.", "quantifier": "every integer, every floating point number that is not a NaN, every operator", "why_tests_cant": "All pairs.", "anchors": ["rapidudf/compiler/codegen.cc: CodeGen::NormalizeDType", "rapidudf/compiler/codegen_cast.cc: CodeGen::CastTo", "rapidudf/compiler/codegen_binary.cc: CodeGen::BinaryOp"]}
{"id": "C114", "title": "Converting a floating point number to an integer", "statement": "Converting a floating point number to an integer type drops the fraction and always gives a defined result; converting an integer to floating point and back gives the integer.", "quantifier": "every format, every bit pattern, every integer width and signedness", "why_tests_cant": "All bit patterns.", "anchors": ["rapidudf/compiler/codegen_cast.cc: CodeGen::CastTo"]}
{"id": "C115", "title": "Maximum and minimum of two numbers", "statement": "max and min of two numbers of one type give one of the two, not below (not above) either; for floating point a NaN operand gives a NaN and the zeros are ordered by sign.", "quantifier": "every integer width and signedness, every format, every pair of bit patterns", "why_tests_cant": "All pairs.", "anchors": ["rapidudf/compiler/codegen_binary.cc: CodeGen::BinaryOp"]}
{"id": "C116", "title": "Powers of integers", "statement": "pow(x, k) of integers gives x to the k whenever the power is a number of the operands' type, and has a defined result otherwise.", "quantifier": "every base, every exponent, every integer width and signedness", "why_tests_cant": "All pairs.", "anchors": ["rapidudf/compiler/codegen_binary.cc: CodeGen::BinaryOp", "rapidudf/compiler/codegen_cast.cc: CodeGen::CastTo"]}
{"id": "C117", "title": "Rounding functions on scalars and vectors", "statement": "floor, ceil, trunc, round and rint of a vector round each element as the same function rounds a scalar.", "quantifier": "every function, every number", "why_tests_cant": "All numbers.", "anchors": ["rapidudf/compiler/codegen_unary.cc: CodeGen::UnaryOp", "rapidudf/functions/simd/vector_unary.cc: do_simd_unary_op"]}
{"id": "C118", "title": "clamp and abs_diff on scalars and vectors", "statement": "clamp gives the value, or the nearer bound if it lies outside; abs_diff gives the absolute difference; both agree on scalars and on elements of vectors and are defined for all operands.", "quantifier": "every integer width, every operands", "why_tests_cant": "All operands.", "anchors": ["rapidudf/functions/math.cc: scalar_clamp, scalar_abs_diff", "rapidudf/functions/simd/vector_ternary.cc: do_simd_ternary_op", "rapidudf/functions/simd/vector_binary.cc: do_simd_binary_op"]}
{"id": "C119", "title": "Kernels on blocks of 64 elements", "statement": "Applying a function of one, two or three operands to blocks of 64 elements writes the function of the j-th elements to place j of the output, for all 64 places, changes nothing else and reads nothing outside the blocks, also when the output block is one of the inputs.", "quantifier": "every lane count dividing 64, every memory content, every placement of the blocks that does not clobber unread input", "why_tests_cant": "All lane counts, contents and placements.", "anchors": ["rapidudf/functions/simd/vector_unary.cc: do_unary_transform", "rapidudf/functions/simd/vector_binary.cc: do_binary_transform", "rapidudf/functions/simd/vector_ternary.cc: do_ternary_transform"]}
{"id": "C120", "title": "Access to JSON values", "statement": "An access chain on a JSON object gives the value at that path, or an error if there is none.", "quantifier": "every JSON value, every chain of keys and indices", "why_tests_cant": "All values and chains.", "anchors": ["rapidudf/functions/json.cc: json_member_get, json_array_get", "rapidudf/ast/expression.cc: VarAccessor::Validate"]}
{"id": "C121", "title": "Reading JSON numbers as integers", "statement": "Using a JSON number as an integer gives that number, or an error if it is no number of the type.", "quantifier": "every JSON value, every integer width and signedness", "why_tests_cant": "All values.", "anchors": ["rapidudf/functions/json.cc: json_extract", "rapidudf/compiler/codegen_cast.cc: CodeGen::CastTo"]}
{"id": "C122", "title": "Adding columns to a schema", "statement": "A successful AddColumns appends one column for each allowed field of the row type that can be a column, in order, named with the prefix; a failed one leaves the schema as it was.", "quantifier": "every schema, every row type, every options", "why_tests_cant": "All row types, option sets and earlier calls.", "anchors": ["rapidudf/table/table_schema.cc: TableSchema::AddColumns, TableSchema::AddColumn", "rapidudf/types/dyn_object_schema.cc: DynObjectSchema::Add"]}
{"id": "C123", "title": "Columns by name", "statement": "The column found under a name is the column of that name, every column is found, and no two columns of a schema have the same name.", "quantifier": "every history of AddColumns calls, successful or not", "why_tests_cant": "All histories.", "anchors": ["rapidudf/table/table.cc: Table::GetIdxByOffset, Table::GetColumn", "rapidudf/table/table_schema.cc: TableSchema::AddColumn"]}
{"id": "C124", "title": "A column shows the rows of its own set", "statement": "A column shows the values of the rows that were added for the AddColumns call it stems from.", "quantifier": "every schema, every column", "why_tests_cant": "All schemas.", "anchors": ["rapidudf/table/table.cc: Table::GetRowsBySchema", "rapidudf/table/row.h: RowSchema::operator=="]}
{"id": "C125", "title": "Extending a schema that is in use", "statement": "Tables made from a schema stay usable when columns are added to the schema later.", "quantifier": "every schema, every table, every later AddColumns", "why_tests_cant": "All histories.", "anchors": ["rapidudf/table/table.cc: Table::Table", "rapidudf/table/table_schema.cc: TableSchema::GetMutable, TableSchema::AddColumn"]}
{"id": "C126", "title": "One schema for a name", "statement": "GetOrCreate initialises at most one schema for a name; all callers get that schema, completely initialised; looking up an unknown name reports that.", "quantifier": "every history of requests by any threads, every initialisers", "why_tests_cant": "All orders of requests.", "anchors": ["rapidudf/types/dyn_object_schema.cc: DynObjectSchema::GetOrCreate, DynObjectSchema::GetMutable", "rapidudf/table/table_schema.cc: TableSchema::GetOrCreate, TableSchema::GetMutable"]}
{"id": "C127", "title": "Cells of struct columns", "statement": "A cell of a column made of a struct member or a method without arguments shows the value of that member in that row; members that can not be shown are refused.", "quantifier": "every C++ type of a member, every value", "why_tests_cant": "All member types and values.", "anchors": ["rapidudf/table/table_schema.cc: TableSchema::AddColumns(DType)", "rapidudf/table/table.cc: Table::LoadColumn", "rapidudf/table/column.cc: Column::GetString, Column::GetRepeatedElement, Column::GetRepeatedString"]}
{"id": "C128", "title": "Cells of protobuf columns", "statement": "A cell of a column made of a protobuf field shows the value of that field; fields that can not be shown are refused.", "quantifier": "every field type, every value, repeated or not", "why_tests_cant": "All field types and values.", "anchors": ["rapidudf/table/table_schema.cc: TableSchema::AddColumns(Message)", "rapidudf/table/column.cc: Column::GetI32, Column::GetRepeatedElement, Column::GetRepeatedString"]}
{"id": "C129", "title": "Cells of flatbuffers columns", "statement": "A cell of a column made of a flatbuffers field shows the value of that field, which is its default if it is not stored.", "quantifier": "every field type, every stored or missing value, every default", "why_tests_cant": "All field types, values and defaults.", "anchors": ["rapidudf/table/table_schema.cc: TableSchema::AddColumns(TypeTable)", "rapidudf/table/column.cc: Column::GetI32, Column::GetString, Column::GetRepeatedElement"]}
{"id": "C130", "title": "Names of types tell types apart", "statement": "The text of a type (used to name its member functions and in messages) is the usual one, and two types have the same text only if they are the same.", "quantifier": "every type, every history of registrations of classes under any names", "why_tests_cant": "All types and registrations.", "anchors": ["rapidudf/meta/dtype.cc: DType::GetTypeString, DTypeFactory::GetNameByDType, DTypeFactory::AddNameDType"]}
{"id": "C131", "title": "Members registered for a type", "statement": "A member of a type has the field and the method first registered under its name for this type, and nothing registered for another type; a second registration is refused and says so; the members are listed in the order of their first registration.", "quantifier": "every history of registrations of fields and methods for any types", "why_tests_cant": "All histories.", "anchors": ["rapidudf/reflect/reflect.cc: Reflect::AddStructField, Reflect::AddStructMethodAccessor, Reflect::GetStructMember, Reflect::GetStructMembers"]}
{"id": "C132", "title": "Member functions of several types in one script", "statement": "A script may call member functions of several types: each call runs the function registered for its type and name.", "quantifier": "every set of types, members and free functions used in a script", "why_tests_cant": "All combinations of names.", "anchors": ["rapidudf/compiler/codegen.cc: CodeGen::DeclareExternFunctions, CodeGen::CallFunction", "rapidudf/meta/function.cc: GetMemberFuncName"]}
{"id": "C133", "title": "Types registered before a script is compiled are known to it", "statement": "A script knows exactly the built-in names of types and those registered before it is compiled; a name means the type first registered under it.", "quantifier": "every history of registrations of types and schemas, creations of compilers and compilations; every order in which hash maps are visited", "why_tests_cant": "All histories and orders.", "anchors": ["rapidudf/ast/symbols.cc: Symbols::Init, Symbols::FindDType, Symbols::IsDTypeExist", "rapidudf/compiler/compiler.cc: JitCompiler::JitCompiler"]}
{"id": "C134", "title": "Compilers on several threads share the table of type names", "statement": "Compilers can be created and used on several threads at the same time without a data race on the table of type names.", "quantifier": "every number of threads, every schedule", "why_tests_cant": "All schedules.", "anchors": ["rapidudf/ast/symbols.cc: Symbols::Init, Symbols::FindDType, Symbols::IsDTypeExist", "rapidudf/exec/eval_engine.h: eval_function, eval_expression"]}
{"id": "C135", "title": "An integer expression computes what is written", "statement": "The text of an expression over integer arguments (literals with and without type suffix, + - * / %, comparisons, && || !, ?:) compiles to a function that returns, for all arguments, the value of the expression: operators bind as the grammar says, operands are brought to the wider type, results wrap around in that type, division by zero and the quotient that does not fit are undefined, and the result is converted to the return type. Where nothing overflows this is the value in the integers.", "quantifier": "every text, every expression whose conditional operands are safe and that negates no choice between numbers of different types (C142), every list of typed arguments and values", "why_tests_cant": "All expressions and all arguments.", "anchors": ["rapidudf/compiler/compiler.cc: CompileExpression", "rapidudf/compiler/codegen.cc: DefineFunction, Return", "rapidudf/compiler/compiler_expressions.cc", "rapidudf/compiler/compiler_constants.cc", "rapidudf/ast/grammar.cc: parse_expression_ast"]}
{"id": "C136", "title": "A function of integers does what its statements say", "statement": "The text of a function of integer arguments with local variables, assignments, if/elif/else, while, break, continue and return compiles to code that, for all arguments, returns exactly the value the statements return, converted to the declared type; is undefined exactly if the statements reach a division that is undefined or the end of the body; and runs forever exactly if the statements do. A call has at most one result.", "quantifier": "every text, every well typed function with distinct names whose control is structured as in C36 and that neither negates nor defines a variable by a choice between numbers of different types (C142), all arguments and contents of memory, any number of iterations", "why_tests_cant": "All functions, all arguments, loops without bound.", "anchors": ["rapidudf/compiler/compiler.cc: CompileFunction", "rapidudf/compiler/compiler_statements.cc: BuildIR", "rapidudf/compiler/codegen.cc: DefineFunction, Return, NewCondition, NewLoop", "rapidudf/ast/grammar.cc: parse_function_ast"]}
{"id": "C137", "title": "A string literal is the string it stands for", "statement": "Every string literal in a script is, at run time, a string view with exactly the characters the literal stands for (a backslash followed by a character stands for one character): its size is their number, it is equal to exactly the views of the same characters, and it is ordered like them, no matter how many other literals the script has.", "quantifier": "every literal, every sequence of literals in a module", "why_tests_cant": "All contents, all lengths (short strings are put into the view itself, long ones into a shared global).", "anchors": ["rapidudf/ast/lexer.cc: ReadString", "rapidudf/ast/grammar.cc: parse_operand", "rapidudf/compiler/codegen_value.cc: NewStringView"]}
{"id": "C138", "title": "A variable that is read has been given a value", "statement": "In a function that compiles, on every path, a variable that is read has been given a value before (or is a parameter or a named constant).", "quantifier": "every function without assignments inside expressions, every path", "why_tests_cant": "All functions and all paths.", "anchors": ["rapidudf/ast/expression.cc: VarDefine::Validate, VarRef::Validate, BinaryExpr::Validate", "rapidudf/ast/context.cc: IsVarExist, AddLocalVar", "rapidudf/compiler/value.cc: CopyFrom"]}
{"id": "C139", "title": "A variable assigned on every path has a place", "statement": "If every variable that is read was given a value before, on every path, then the compiled code uses only places of variables that have been made.", "quantifier": "every function without assignments inside expressions, every path", "why_tests_cant": "All functions and all paths.", "anchors": ["rapidudf/compiler/value.cc: CopyFrom", "rapidudf/compiler/codegen_value.cc: NewVoid", "rapidudf/compiler/codegen.cc: GetLocalVar, FinishFunction"]}
{"id": "C140", "title": "The stack used by a call does not depend on the number of iterations", "statement": "For every function there is a bound on the stack a call uses that holds for all arguments, however often its loops are repeated.", "quantifier": "every function without calls, every path", "why_tests_cant": "Any number of iterations.", "anchors": ["rapidudf/compiler/value.cc: CopyFrom", "rapidudf/compiler/codegen_value.cc: NewVar, NewStringView, NewArray", "rapidudf/compiler/codegen.cc: CallFunction"]}
{"id": "C141", "title": "What validation accepts is compiled", "statement": "A list of statements over booleans, numbers and strings that passes validation is compiled: no later step refuses it, and afterwards every variable has the type that validation gave it.", "quantifier": "every list of definitions, assignments, updates and expressions, all types of variables, every set of registered functions", "why_tests_cant": "All programs: validation and code generation compute types separately.", "anchors": ["rapidudf/ast/expression.cc: BinaryExpr::Validate, UnaryExpr::Validate, VarAccessor::Validate", "rapidudf/ast/context.cc: CanCastTo, CheckFuncExist, AddLocalVar", "rapidudf/compiler/codegen_binary.cc: BinaryOp", "rapidudf/compiler/codegen_cast.cc: CastTo", "rapidudf/compiler/value.cc: CopyFrom", "rapidudf/meta/function.cc: ValidateArgs"]}
{"id": "C142", "title": "Validation predicts the types of the compiled code", "statement": "The type that validation computes for an expression over booleans, numbers and strings is the type of the value in the compiled code.", "quantifier": "every expression, all types of variables, every set of registered functions", "why_tests_cant": "All expressions: the two type computations are separate.", "anchors": ["rapidudf/ast/expression.cc: BinaryExpr::Validate, SelectExpr::Validate", "rapidudf/compiler/codegen.cc: NormalizeDType", "rapidudf/compiler/codegen_ternary.cc: TernaryOp", "rapidudf/meta/dtype.cc: CanCastTo"]}
{"id": "C143", "title": "Functions that call each other compute what their text says", "statement": "The text of several functions of integers and booleans, which call themselves, functions written before them and registered functions, is compiled, and a call of any of them with arguments of its types returns a value exactly if the statements of the script return that value, however deep the calls and however many the iterations, whatever the memory of the frames holds. A call has at most one result.", "quantifier": "every text, every well typed script with distinct names whose control is structured as in C36 and that neither negates nor defines a variable by a choice between values of different types (C142), all registered functions without effects, all arguments, any depth of calls", "why_tests_cant": "All scripts, all arguments, unbounded recursion.", "anchors": ["rapidudf/compiler/compiler.cc: CompileSource, CompileFunctions", "rapidudf/compiler/codegen.cc: CallFunction, DefineFunction, Return", "rapidudf/ast/context.cc: CheckFuncExist", "rapidudf/ast/grammar.cc: parse_functions_ast"]}
{"id": "C144", "title": "A vector expression of integers computes element by element what its text says", "statement": "The text of an expression over numbers and vectors of integers, of matching element types, is compiled to a function with a vector as result if a `Context` is among the parameters, and refused otherwise unless it is a single vector. For vectors of any number of elements the result has that many elements, and each is what the text describes for the elements at its place, single numbers being converted to the type of the elements; if one element has no value (a division by zero), the call is undefined. Comparisons and their combinations give a vector of bits.", "quantifier": "every text, every expression of + - * / % comparisons && || ! ?: whose operands have one element type or are single numbers beside a vector, divisors being literals from 1 to 127 or vector arguments, all vectors of less than 2^30 elements, all contents of newly allocated memory", "why_tests_cant": "All texts and all vectors of all sizes.", "anchors": ["rapidudf/compiler/compiler.cc: CompileExpression", "rapidudf/compiler/compiler_eval.cc: BuildIR, BuildVectorIR, BuildVectorEvalIR", "rapidudf/ast/grammar.cc: parse_expression_ast", "rapidudf/ast/expression.cc: BinaryExpr::Validate, UnaryExpr::Validate, SelectExpr::Validate", "rapidudf/compiler/codegen_vector.cc: LoadVector, LoadNVector, StoreVector, StoreNVector"]}
{"id": "C145", "title": "A number may be the first alternative of a selection", "statement": "A selection between a number and a vector, in this order, is compiled to a function with a vector of the elements' type as result, and chooses for each element.", "quantifier": "every selection between a single number and a vector expression, all vectors", "why_tests_cant": "All selections, all types.", "anchors": ["rapidudf/ast/expression.cc: SelectExpr::Validate", "rapidudf/compiler/compiler_eval.cc: BuildVectorIR"]}
{"id": "C146", "title": "Distances between vectors are computed from matching elements", "statement": "The Euclidean distance of two vectors is the root of the sum of the squared differences of the elements at the same place, the cosine distance is one minus the sum of products divided by both norms and NaN if a norm is zero, whatever the number of elements and the number of lanes of the machine. Nothing outside the vectors is read. Vectors of different sizes are refused.", "quantifier": "every size, every number of lanes, all elements; exact arithmetic (any commutative sums)", "why_tests_cant": "All sizes against all lane counts: whole blocks and tails.", "anchors": ["rapidudf/functions/simd/vector_misc.cc: simd_vector_cos_distance_impl, simd_vector_l2_distance_impl"]}
{"id": "C147", "title": "The dot product reads only its vectors", "statement": "The dot product of two vectors of the same size is the sum of the products of the elements at the same place, and nothing outside the vectors is read.", "quantifier": "every size, every number of lanes, all elements, any memory around the vectors", "why_tests_cant": "All sizes against all lane counts.", "anchors": ["rapidudf/functions/simd/vector_misc.cc: simd_vector_dot_impl"]}
{"id": "C148", "title": "Objects of the syntax tree are destroyed once, and before their memory is used again", "statement": "Over the life of a compiler's parse context every object made for a syntax tree that has a destructor is destroyed exactly once, newest first; the memory is used for the next script only when no object is left in it, and objects that exist do not share memory.", "quantifier": "every history of creations (of any sizes, with or without destructor), container growth and resets, every behaviour of the system allocator", "why_tests_cant": "All histories of scripts given to one compiler.", "anchors": ["rapidudf/ast/ast_pool.h: AstPool::New, AstPool::Reset, AstPool::~AstPool", "rapidudf/ast/context.cc: ParseContext::SetSource, ParseContext::Clear"]}
{"id": "C149", "title": "Names of built-in functions tell operations and types apart", "statement": "Built-in functions are registered and looked up under a name made of the operation and the types of its operands. Different operations, different element types, or vectors instead of single values have different names, also between names made of one and of two types; the per-thread cache of names gives the name that would be computed.", "quantifier": "all pairs of operations and built-in types, all histories of lookups", "why_tests_cant": "All pairs of names: joining texts by an underscore is ambiguous in general.", "anchors": ["rapidudf/meta/function.cc: GetFunctionName, GetCachedFunctionName", "rapidudf/meta/optype.h: kOpTokenStrs"]}
{"id": "C150", "title": "A compiled function keeps its code", "statement": "A function object obtained from a compiler runs the function it was obtained for, however often it was moved, and whether or not the compiler was used again or destroyed since; code that no function object and no compiler needs is freed.", "quantifier": "every history of compiling, loading, moving and destroying function objects and compilers", "why_tests_cant": "All histories: a missing share of the code shows only after the compiler is used again or gone.", "anchors": ["rapidudf/compiler/function.h: JitFunction", "rapidudf/compiler/compiler.h: JitCompiler::LoadFunction, JitCompiler::CompileFunction", "rapidudf/compiler/compiler.cc: JitCompiler::NewCodegen"]}
{"id": "C151", "title": "A function object tells whether it came from the cache", "statement": "A function object reports whether it was taken from the cache, also after it has been moved.", "quantifier": "every history of compiling and moving function objects", "why_tests_cant": "All histories of moves; the value of a member that was never written is not determined.", "anchors": ["rapidudf/compiler/function.h: JitFunction::MoveFrom, JitFunction::IsFromCache"]}
{"id": "C152", "title": "An expression of integers and floating point numbers with built-in functions computes what it says", "statement": "An expression over booleans, integers of any width, f32 and f64 with operators, comparisons, `? :`, literals with and without fraction and suffix, and the built-in mathematical functions is compiled exactly if it has a type, convertible to the return type; a call then returns its value. The operands of every operation are converted to the type in which they meet (the wider integer, or the floating point type), the right operation or function is applied in that type, and the result is converted to the return type. Operands that may not be needed must be safe to evaluate (see C38), and what is negated or passed to a function must not choose between values of different types (see C142).", "quantifier": "every expression, every text of it, all declared argument types and return types, all arguments, any arithmetic of the floating point unit", "why_tests_cant": "Unboundedly many expressions, combinations of types and texts.", "anchors": ["rapidudf/compiler/compiler.cc: JitCompiler::CompileExpression", "rapidudf/ast/grammar.cc: parse_expression", "rapidudf/ast/expression.cc: UnaryExpr::Validate, BinaryExpr::Validate, SelectExpr::Validate, VarAccessor::Validate", "rapidudf/compiler/compiler_constants.cc: BuildIR", "rapidudf/compiler/codegen_cast.cc: CodeGen::CastTo", "rapidudf/compiler/codegen_binary.cc: CodeGen::BinaryOp", "rapidudf/compiler/codegen_unary.cc: CodeGen::UnaryOp", "rapidudf/compiler/codegen_ternary.cc: CodeGen::TernaryOp", "rapidudf/functions/math.cc"]}
{"id": "C153", "title": "A function over vectors computes, element by element, what its statements say", "statement": "A function with a `Context` and parameters that are vectors or single values (booleans, integers of any width, f32, f64, strings) whose body defines and assigns variables (`auto y = e;`, `y = e;`, `y += e;` and so on) and returns a vector expression (operators, conditionals, comparisons of strings and the built-in mathematical functions `sqrt`, `max`, `clamp`, `fma` and so on) is compiled, and a call returns the vector whose elements are the result of executing the statements on the elements at the same place; if some element is undefined (division by zero), the call is undefined. No memory outside the vectors is relied on. Without a `Context` among the parameters, every function with an operator in it is refused.", "quantifier": "every such function, every text of it, every vector length below 2^30, all elements and numbers, any content of freshly allocated memory, any floating point unit", "why_tests_cant": "Unboundedly many functions, lengths (whole blocks and remainders) and elements; variables reuse vectors made by earlier statements including their unused lanes.", "anchors": ["rapidudf/compiler/compiler.cc: JitCompiler::CompileFunction", "rapidudf/compiler/compiler_statements.cc: BuildIR(const ast::ExpressionStatement&), BuildIR(const ast::ReturnStatement&)", "rapidudf/compiler/compiler_eval.cc: JitCompiler::BuildVectorIR, JitCompiler::BuildVectorEvalIR", "rapidudf/compiler/value.cc: Value::CopyFrom", "rapidudf/ast/expression.cc: BinaryExpr::Validate, SelectExpr::Validate", "rapidudf/ast/statement.cc: ReturnStatement::Validate"]}
{"id": "C154", "title": "A vector variable made from another vector is a copy", "statement": "After a vector has been assigned to a variable, changing one of the two does not change the other.", "quantifier": "every function over vectors, every length, all elements", "why_tests_cant": "All functions with two names for a vector.", "anchors": ["rapidudf/compiler/value.cc: Value::CopyFrom", "rapidudf/compiler/compiler_eval.cc: JitCompiler::BuildVectorIR"]}
{"id": "C155", "title": "Assignments of vectors that validation accepts can be compiled", "statement": "If the types of an assignment with vectors are accepted, code for it is generated.", "quantifier": "all assignments with vectors", "why_tests_cant": "All combinations of types on both sides.", "anchors": ["rapidudf/ast/expression.cc: BinaryExpr::Validate", "rapidudf/compiler/value.cc: Value::CopyFrom", "rapidudf/compiler/compiler_eval.cc: JitCompiler::BuildVectorIR"]}
{"id": "C156", "title": "A function over tables returns the rows its statements describe", "statement": "A function with a `Context`, table, number and string parameters whose body defines tables by chains of `filter`, `order_by`, `topk`, `head`, `tail` and `concat` and returns such a table is compiled, and a call returns the rows that the chains describe one after another: the rows whose condition over the columns is true (operators, conditionals, comparisons of strings and built-in mathematical functions), all rows or the first k in the order of a computed key, the first or last k rows, the rows of both tables. A row keeps all its objects together. A column by which a table has been sorted is not read again (see C157), and `tail` is not called with zero (see C59).", "quantifier": "every such function, every text of it, every schema of integer, floating point and string columns over any number of row types, all tables whose size stays below 2^30 rows, all numbers, any sorting library that meets its contract", "why_tests_cant": "Unboundedly many functions and tables; columns are loaded on demand, cached and shared between the tables of a function.", "anchors": ["rapidudf/compiler/compiler_expressions.cc: JitCompiler::BuildIR(ValuePtr, const ast::FieldAccess&)", "rapidudf/ast/expression.cc: FieldAccess::Validate, FuncInvokeArgs::Validate, VarAccessor::Validate", "rapidudf/functions/simd_table.cc", "rapidudf/table/table.cc: Table::Filter, Table::OrderBy, Table::Topk, Table::Head, Table::Tail, Table::Concat, Table::LoadColumn"]}
{"id": "C157", "title": "Sorting a table does not change the columns of the table that was sorted", "statement": "After `order_by` or `topk` on a table, its columns still hold the values of its rows.", "quantifier": "every function over tables, all tables", "why_tests_cant": "All functions that read a column before and after a sort.", "anchors": ["rapidudf/table/table.cc: Table::OrderBy, Table::Topk", "rapidudf/functions/simd/vector_sort.cc: simd_vector_sort_key_value, simd_vector_topk_key_value", "rapidudf/table/table.cc: Table::LoadColumn"]}
{"id": "C158", "title": "A function over booleans, integers and floating point numbers with built-in functions does what its statements say", "statement": "The text of a function with arguments and local variables of type bool, any integer type, f32 and f64, with expressions as in C152, assignments, if/elif/else, while, break, continue and return compiles to code that, for all arguments, returns exactly the value the statements return, converted to the declared type; is undefined exactly if the statements reach an undefined operation, return a number that does not fit into the declared integer type, or reach the end of the body; and runs forever exactly if the statements do. A call has at most one result.", "quantifier": "every text, every well typed function with distinct names whose control is structured as in C36 and that neither negates, passes to a function nor defines a variable by a choice between values of different types (C142), all arguments and contents of memory, any number of iterations, any arithmetic of the floating point unit", "why_tests_cant": "Unboundedly many functions, numbers of iterations and floating point values.", "anchors": ["rapidudf/compiler/compiler.cc: CompileFunction", "rapidudf/compiler/compiler_statements.cc: BuildIR", "rapidudf/compiler/codegen.cc: DefineFunction, Return, NewCondition, NewLoop", "rapidudf/compiler/codegen_cast.cc: CodeGen::CastTo", "rapidudf/ast/statement.cc", "rapidudf/ast/grammar.cc: parse_function_ast"]}
{"id": "C159", "title": "A method called from a script is the method registered under its name", "statement": "Calling a method of a class by its name runs the method the program registered first under this name for this class and no other; on a null pointer it throws an exception with the name of the method; a name that was not registered is no member. Needed: different methods registered on one line with the same C++ type have names of different hash; names that differ in one place have.", "quantifier": "all histories of registrations in any number of files, all classes, all names and methods", "why_tests_cant": "All sets of methods registered together: the methods are kept in variables shared by everything with the same hash.", "anchors": ["rapidudf/meta/function.h: fnv1a_hash, MemberFunctionWrapper, MEMBER_FUNC_WRAPPER", "rapidudf/reflect/reflect.cc: Reflect::AddStructMethodAccessor", "rapidudf/reflect/struct.h: RUDF_STRUCT_MEMBER_METHODS"]}
{"id": "C160", "title": "Sizes, searches and flatbuffers elements of message containers", "statement": "For a protobuf repeated field, map or flatbuffers vector in a script: `size` is the number of elements, `find` the first index of an equal element or -1, `contains` whether there is one; `get` of a flatbuffers vector is the element, or zero or null outside. A null container is empty, and `get` of it throws.", "quantifier": "all containers and all searched values, any equality of elements, all 32-bit indices", "why_tests_cant": "All containers, lengths and positions of the first match.", "anchors": ["rapidudf/reflect/protobuf.h: PBRepeatedFieldHelper, PBRepeatedPtrFieldHelper, PBMapHelper", "rapidudf/reflect/flatbuffers.h: FBSVectorHelper"]}
{"id": "C161", "title": "Elements and fields of protobuf messages are given or an error is reported", "statement": "`get` of a protobuf repeated field gives the element at an index or reports an error, `get` of a map the value of a key or a default that can be used, and setters of a null message report an error.", "quantifier": "all fields and maps, all indices including negative ones, all keys, null messages", "why_tests_cant": "All indices and keys.", "anchors": ["rapidudf/reflect/protobuf.h: PBRepeatedFieldHelper::Get, PBRepeatedPtrFieldHelper::Get, PBMapHelper::Get, PBSetStringHelper::Call"]}
{"id": "C162", "title": "An expression with strings computes what it says", "statement": "An expression over strings, booleans and numbers as in C152, with string literals, comparisons of strings, `? :` between strings and the methods size, contains, starts_with, ends_with and contains_ignore_case of string arguments is compiled exactly if it has a type, convertible to the return type; a call then returns its value. Strings are compared byte by byte and lexicographically; contains means that the part occurs somewhere. Nothing else is accepted: adding, negating or passing strings to mathematical functions, comparing a string with a number, choosing between a string and a number, and methods of numbers are refused.", "quantifier": "every expression, every text of it, all declared argument types and return types, all arguments with strings shorter than 2^31 bytes, any arithmetic of the floating point unit; operands that may not be needed are safe (C38), branches of numbers have one type (C142), literals have no backslash (C137)", "why_tests_cant": "Unboundedly many expressions and strings.", "anchors": ["rapidudf/compiler/compiler.cc: JitCompiler::CompileExpression", "rapidudf/compiler/compiler_expressions.cc: JitCompiler::BuildIR", "rapidudf/compiler/codegen_binary.cc: CodeGen::BinaryOp", "rapidudf/compiler/codegen_value.cc: CodeGen::NewStringView", "rapidudf/compiler/codegen_ternary.cc: CodeGen::TernaryOp", "rapidudf/ast/expression.cc: FieldAccess::Validate, BinaryExpr::Validate", "rapidudf/functions/strings.cc: StringViewHelper", "rapidudf/types/string_view.h: StringView"]}
{"id": "C163", "title": "A function with strings does what its statements say", "statement": "The text of a function with arguments and local variables of strings, booleans and numbers, with expressions as in C162, assignments, if/elif/else, while, break, continue and return compiles to code that, for all arguments, returns exactly the value the statements return, converted to the declared type, is undefined exactly if the statements reach an undefined operation or the end of the body, and runs forever exactly if the statements do. Strings that are equal are treated equally, whatever the unused bytes of their views hold.", "quantifier": "every text, every well typed function with distinct names whose control is structured as in C36, with expressions as in C162, all arguments with strings shorter than 2^31 bytes, all contents of memory, any number of iterations, any arithmetic of the floating point unit", "why_tests_cant": "Unboundedly many functions, strings and numbers of iterations.", "anchors": ["rapidudf/compiler/compiler.cc: CompileFunction", "rapidudf/compiler/compiler_statements.cc: BuildIR", "rapidudf/compiler/codegen.cc: DefineFunction, Return, NewCondition, NewLoop", "rapidudf/compiler/codegen_value.cc: CodeGen::NewStringView", "rapidudf/ast/statement.cc", "rapidudf/types/string_view.h: StringView"]}
{"id": "C164", "title": "Sorting in place rearranges the vector and nothing else", "statement": "`sort`, `select`, `topk` and `sort_kv`, `select_kv`, `topk_kv` on writable vectors leave the same elements (the same pairs of key and value) in the vector, in the order asked for: all of them, the first k before the others, or both. A vector that must not be changed, or keys and values of different size, are refused and nothing is changed. After any history of such calls on vectors that share memory every buffer holds the same elements, and elements outside the writable vectors that were passed are where they were.", "quantifier": "all memories, all vectors and slices within their buffers, all histories of finished and refused calls, all k up to the size, any order of elements, with and without elements that are not a number (if the context announces them)", "why_tests_cant": "All vectors, all overlaps and all histories.", "anchors": ["rapidudf/functions/simd/vector_sort.cc: simd_vector_sort, simd_vector_select, simd_vector_topk, simd_vector_sort_key_value, simd_vector_select_key_value, simd_vector_topk_key_value", "rapidudf/types/vector.h: VectorBase::IsReadonly, Vector::Slice", "rapidudf/context/context.h: Context::HasNan"]}
{"id": "C165", "title": "Strings in vectors and columns are compared one by one", "statement": "A function that compares a `simd_vector<string_view>` with a string literal, with a `string_view` parameter or with another such vector by `==`, `!=`, `<`, `<=`, `>`, `>=` returns for every element the bit that tells how its bytes compare, lexicographically, with the bytes of the literal, of the parameter, or of the element at the same place. `x.filter(x.col == \"text\")`, and likewise with another comparison or a parameter, returns exactly the rows of the table whose string in that column compares so, in their order.", "quantifier": "all six comparisons, all strings shorter than 2^31 bytes (literals without backslash, C137), all vector lengths below 2^30, every text of such a function, every schema and table with a column of strings, any content of freshly allocated memory", "why_tests_cant": "All strings, all vectors, all tables.", "anchors": ["rapidudf/ast/expression.cc: BinaryExpr::Validate", "rapidudf/compiler/compiler_eval.cc: JitCompiler::BuildVectorEvalIR", "rapidudf/compiler/codegen_binary.cc: CodeGen::VectorBinaryOp", "rapidudf/functions/strings.cc: register_string_view_vector_cmp_func", "rapidudf/types/string_view.h: StringView::compare", "rapidudf/table/table.cc: Table::LoadColumn", "rapidudf/table/column.cc: Column::GetString"]}
{"id": "C166", "title": "A function over the fields of structs does what its statements say", "statement": "The text of a function as in C163, some of whose arguments are objects of registered structs, and whose statements read, assign and update fields of these objects and of structs embedded in them (`p.x`, `p.pos.y += d`), is compiled. For all objects and values passed the code returns exactly what the statements return, and the fields of the objects then hold exactly what the statements have left in them: an assignment changes the field it names and no other field. The call is undefined exactly if the statements reach an undefined operation or the end of the body.", "quantifier": "every registry of structs whose fields are inside the object and do not overlap, every text, every well typed function with distinct names as in C163, all objects and arguments (different arguments being different objects), any number of iterations", "why_tests_cant": "Unboundedly many structs, functions and objects.", "anchors": ["rapidudf/ast/expression.cc: VarAccessor::Validate, FieldAccess::Validate", "rapidudf/compiler/compiler_expressions.cc: JitCompiler::BuildIR(const ast::VarAccessor&), BuildIR(ValuePtr, const ast::FieldAccess&)", "rapidudf/compiler/codegen_value.cc: CodeGen::GetStructField", "rapidudf/compiler/value.cc: Value::CopyFrom", "rapidudf/reflect/reflect.cc: Reflect::GetStructMember", "rapidudf/reflect/struct.h: RUDF_STRUCT_FIELDS"]}
{"id": "C167", "title": "A vector made from a std::vector shows its elements", "statement": "A vector made from a `std::vector` of numbers or string views by the context shows the elements of the `std::vector`. With `clone` it has a copy of its own: later changes of the `std::vector` or of other vectors do not show in it, and setting its elements changes nothing else. Without `clone` it shows the elements of the `std::vector` as they are at any time, and setting an element, if writing was allowed, changes the `std::vector`. Setting an element outside the vector, or of a vector that must not be written, is an error and changes nothing. A vector made from a `std::vector<bool>` has its elements, whatever the memory of the context held before.", "quantifier": "every number and place of `std::vector` objects, every element size, every history of making vectors, assigning elements and setting elements, whatever memory the arena gives, every list of booleans", "why_tests_cant": "Unboundedly many histories and memory layouts; tests make one vector at a time.", "anchors": ["rapidudf/context/context.h: Context::NewVector", "rapidudf/types/vector.h: Vector::operator[], Vector::Set, VectorBase::MutableData", "rapidudf/types/bit.h: bit_set, bit_clear"]}
{"id": "C168", "title": "A string made in an arena lives in that arena", "statement": "A string (`arena::String`) made with the allocator of an arena keeps its text, and can be read, assigned and appended to, until that arena is reset, whatever other strings it is assigned from, moved from or copied from, and whatever other arenas are reset. It never shows a wrong text.", "quantifier": "every history of making, copying, moving, assigning and appending to any number of strings in any number of arenas, and of resetting arenas, all texts", "why_tests_cant": "Unboundedly many histories; strings of up to 15 characters hide the difference.", "anchors": ["rapidudf/memory/arena_string.h: BasicString", "rapidudf/memory/allocator.h: CxxAllocatorAdaptor", "rapidudf/memory/arena.h: ThreadSafeArenaAllocator"]}
{"id": "C169", "title": "Sorting starts from the numbers of the rows on every thread", "statement": "Sorting a table, or selecting its first rows in an order, begins with the numbers 0, 1, 2, \u2026 of its rows, each once, whatever number of rows it had before, and whatever other threads sort other tables at the same time.", "quantifier": "every number of threads, every number of rows, every order of the steps of the threads, every history of row counts of one table", "why_tests_cant": "The result depends on the order of steps of several threads at the first calls of a process; tests sort on one thread.", "anchors": ["rapidudf/table/table.cc: get_indices, Table::GetIndices, Table::OrderBy, Table::Topk"]}
{"id": "C170", "title": "A function over dynamic objects does what its statements say, and the host sees it", "statement": "The text of a function as in C163, some of whose arguments are objects of schemas defined at run time (`dyn_obj<User> p`), and whose statements read, assign and update number and string fields of these objects, is compiled; a field that was never added to the schema is refused. The function starts with the values the host has set (`Set`), returns exactly what the statements return, and afterwards `Get` reads from every field exactly what the statements have left in it. Fields of other types, which the statements cannot assign, are as before.", "quantifier": "all schemas (up to 2^27 fields, any header below 2^31 bytes), every text, every well typed function with distinct names, all objects of the schemas of the arguments (different arguments being different objects), any number of iterations", "why_tests_cant": "Unboundedly many functions, schemas, objects and loop counts; the compiler and the host compute the place of a field separately.", "anchors": ["rapidudf/ast/function.cc: Function::Validate", "rapidudf/ast/expression.cc: FieldAccess::Validate", "rapidudf/compiler/compiler_expressions.cc: JitCompiler::BuildIR(ValuePtr, const ast::FieldAccess&)", "rapidudf/types/dyn_object_schema.cc: DynObjectSchema::Add, GetField", "rapidudf/types/dyn_object_impl.h: DynObject::Set, Get"]}
{"id": "C171", "title": "Evaluating the text of an expression gives its value, through the cache and on every thread", "statement": "A program passes texts of expressions, with names and values of arguments, to `eval_expression`, any number of times and on any number of threads. Each call whose text is that of a well typed expression over its argument names returns the value of that expression at the values of that call, is refused exactly if the expression is, and is undefined exactly if the expression reaches an undefined operation; it does not matter which texts were evaluated before, or whether the compiled code came from the cache. The condition: one text with the same types is always passed with the same names, and no text is passed to both `eval_expression` and `eval_function`.", "quantifier": "every history of calls, every interleaving of the steps of lookups, compilations and stores of all threads, all texts, types, names and values", "why_tests_cant": "Unboundedly many histories and interleavings; a test evaluates a few texts, mostly once.", "anchors": ["rapidudf/exec/eval_engine.h: eval_expression", "rapidudf/compiler/compiler.h: JitCompiler::CompileDynObjExpression, CompileExpression"]}
{"id": "C172", "title": "Tables made from tables hold their own rows, found where they belong", "statement": "A program makes tables, adds rows to them (`AddRows`, `InsertRow`, `AppendRow`) and makes tables from tables (`Filter`, `Split`, `Head`, `Tail`, `Concat`, and the tables of chosen rows returned by sorting, selecting and grouping). Every table it holds then has exactly the rows these operations say, in their order, whatever is later done to other tables; `GetRow` of a row type and number gives the object of that type in that row, the objects of one row staying together, and reports an error exactly if there is no such row or type. An operation that is refused changes nothing.", "quantifier": "every history of these operations over any number of tables, any number of row types, all rows, masks and row numbers", "why_tests_cant": "Unboundedly many histories; tests look at one operation at a time and do not change a table after deriving another.", "anchors": ["rapidudf/table/table.cc: Table::Table, Table::Clone, Table::Filter, Table::Split, Table::Head, Table::Tail, Table::Concat, Table::Count, Table::GetRowIdx", "rapidudf/table/table.h: Table::AddRows, Table::InsertRow, Table::AppendRow, Table::GetRow"]}
{"id": "C173", "title": "A parameter tree shows what was written last at every place", "statement": "A program builds a tree of parameters (`Params`) with the setters, `Put`, `Add`, and the operators `[name]` and `[number]` that make places when they are used. If no place is used in two ways (as a value, an object, an array), then at every place, whatever the order of writes, a reader sees the value written last there with its type, or that it is an object, or an array with its size; an empty place where a place was made and nothing written; and nothing where no place was made.", "quantifier": "every history of writes, all paths of names and numbers, all values", "why_tests_cant": "Unboundedly many histories and paths; tests build one small tree.", "anchors": ["rapidudf/types/params.h: Params", "rapidudf/types/params.cc: Params::operator[], Params::Put, Params::Add, Params::Get, Params::SetString, Params::SetInt, Params::SetDouble, Params::SetBool, Params::Size"]}
{"id": "C174", "title": "Tables made from tables outlive them", "statement": "A table made with `NewTable` can be used until the program destroys it, and a table returned by `Filter`, `Split`, `Head`, `Tail`, `Concat`, sorting or grouping until the context is reset, whatever becomes of the table it was made from; until then it has its rows.", "quantifier": "every history of the operations of C172, of destroying tables and of resetting the context", "why_tests_cant": "Unboundedly many histories; a use of a destroyed table often goes unnoticed.", "anchors": ["rapidudf/table/table.cc: Table::Deleter, Table::Clone, Table::Head, Table::Tail", "rapidudf/table/table_schema.cc: TableSchema::NewTable", "rapidudf/context/context.h: Context::Own", "rapidudf/context/context.cc: Context::Reset"]}
{"id": "C175", "title": "A destructor run by the context can read the memory the context gave out", "statement": "A program obtains memory from a context (`ArenaAllocate`) and hands objects to it (`Own`) whose destructors read such memory. When the context is reset or destroyed, every destructor finds the memory it reads: no byte of it has been given back to the system.", "quantifier": "every history of allocations, owned objects and resets of a context used by one thread, all sizes, all answers of the system allocator, any ranges read by the destructors", "why_tests_cant": "Unboundedly many histories; a read of freed memory mostly goes unnoticed in a test.", "anchors": ["rapidudf/context/context.cc: Context::Reset, Context::~Context", "rapidudf/context/context.h: Context::Own", "rapidudf/memory/arena.h: Arena::Reset", "rapidudf/memory/folly_arena.h: Arena::clear, Arena::freeLargeBlocks"]}
{"id": "C176", "title": "Grouping by columns goes by the values in them", "statement": "Grouping a table by a list of columns (`GroupBy(columns)`; `Distinct(columns)` finds its groups in the same way) makes one table for each combination of values: two rows are in the same table if and only if they have equal values in every one of the columns, whatever the types of the columns (integers of any width, floating point numbers, strings, booleans) and however the values hash.", "quantifier": "all tables, all lists of columns of these types, all values, any hash function of strings, any order of the hash map", "why_tests_cant": "Unboundedly many values and combinations; collisions of hashes and special values are rare in tests.", "anchors": ["rapidudf/table/table.cc: Table::GroupBy, Table::DistinctByColumns", "rapidudf/table/table.h: DistinctKeyHash, DistinctKeyCompare", "rapidudf/meta/dtype.cc: DType::Equal, DType::Hash, DType::ByteSize"]}
{"id": "C177", "title": "Rows are taken out of tables at the types they were put in with", "statement": "A program makes tables of any row types, adds and inserts objects, makes tables from tables, and lets `GetRow`, `Foreach`, `Distinct` (with a merge function) and `Map` take objects out again as objects of the types it names. Every object is taken out as an object of the type it was put in with; calls that name types the rows do not have (or not in that order) fail, calls that name the right types succeed, and none reads past the rows.", "quantifier": "every history of these calls over any number of tables and table schemas, all types named in the calls, all objects and functions", "why_tests_cant": "Unboundedly many histories and combinations of types; an object taken out at a wrong type often goes unnoticed.", "anchors": ["rapidudf/table/table.cc: Table::Validate, Table::DoAddRows, Table::InsertRow, Table::DoConcat", "rapidudf/table/table.h: Table::AddRows, Table::GetRow, Table::Foreach, Table::Distinct, Table::Map, LoadMutableRow, VisitRow"]}
{"id": "C178", "title": "Random vectors follow their seed", "statement": "The numbers written by requests for random numbers on a context (`simd_vector_random`, 64 numbers a call) are determined by the seed: the requests made with a seed write, in order, the numbers of the sequence started by that seed, integers and uniform numbers alike, at the beginning of the memory they are given and nowhere else, whatever else is done with the context, and the same again on another context.", "quantifier": "every history of requests and other calls on a context, all seeds and kinds of numbers, every generator", "why_tests_cant": "Unboundedly many histories; what a test sees of random numbers is usually only that they differ.", "anchors": ["rapidudf/functions/simd/vector_misc.cc: simd_vector_random_impl", "rapidudf/context/context.h: Context::GetPtr", "rapidudf/context/context.cc: Context::Reset"]}
{"id": "C179", "title": "Objects made in an arena release what they own elsewhere", "statement": "An object made in the arena of a context (`ArenaNew`) may own things outside the arena, itself or through its elements at any depth (strings and containers of the standard library, files, locks). When the pointer to it goes, everything it owns is released, each thing once, although destructors are skipped where the code finds them unnecessary; the destructors of classes that declare their destructor disabled are not run.", "quantifier": "all types built from classes, arena strings, sequences, sets and maps of arena and standard allocators, all objects of them, both ways the standard library answers `is_trivially_destructible_v`", "why_tests_cant": "Unboundedly many nestings of types; a leak is not visible in the results of a test.", "anchors": ["rapidudf/memory/arena.h: ArenaObjDeleter, ThreadCachedArena::New, ThreadCachedArena::destroy", "rapidudf/memory/allocator.h: CxxAllocatorAdaptor::destroy", "rapidudf/memory/arena_container.h: is_trivially_destructible", "rapidudf/meta/type_traits.h: is_destructor_disabled"]}
{"id": "C180", "title": "Multiply-add functions of scalars and vectors", "statement": "`fma`, `fms`, `fnma` and `fnms` of floating point numbers compute a\u00b7b+c, a\u00b7b\u2212c, \u2212a\u00b7b+c and \u2212a\u00b7b\u2212c rounded once, and give the same numbers for scalars as for the elements of vectors, on every processor.", "quantifier": "all finite numbers, all formats and roundings, processors with and without fused instructions", "why_tests_cant": "Unboundedly many numbers; the results differ only in the last bits except where the sum cancels.", "anchors": ["rapidudf/functions/math.cc: scalar_fms, scalar_fnma, scalar_fnms, register_fma", "rapidudf/compiler/codegen_ternary.cc: CodeGen::TernaryOp", "rapidudf/functions/simd/vector_ternary.cc: do_simd_ternary_op"]}
{"id": "C181", "title": "Numbers of C++ types", "statement": "The number the library gives to a C++ type, under which type descriptors, cached objects of a context and row types are found, is the same in every call for that type and differs from the numbers of all other types, whichever threads ask first and at the same time and from whichever source file; no thread waits forever for a number.", "quantifier": "all schedules of any number of threads, all programs with at most 2^32 types, all assignments of types to translation units", "why_tests_cant": "Two first calls at the same moment do not happen reliably in a test; the order of first calls differs between programs; the tests are linked one source file at a time.", "anchors": ["rapidudf/meta/typeid.h: TypeID::Get, TypeID::nextTypeId", "rapidudf/context/context.h: Context::GetTypeId", "rapidudf/context/context.cc: Context::NextTypeId", "rapidudf/meta/dtype.h: nextTypeId, get_dtype"]}
{"id": "C182", "title": "A message logged once in n times", "statement": "Of the executions of `RUDF_LOG_EVERY_N(level, n, \u2026)` at one place in the program, the first logs and then every n-th, whichever threads they run on.", "quantifier": "all n, all numbers of executions, all schedules of any number of threads", "why_tests_cant": "The accesses to the counter interleave in unboundedly many ways; a test on one thread sees none of them.", "anchors": ["rapidudf/log/log.h: RUDF_LOG_EVERY_N, RUDF_INFO_EVERY_N, RUDF_ERROR_EVERY_N"]}
{"id": "C183", "title": "One thread pool for the program", "statement": "All calls of `get_global_thread_pool`, on any threads, return the same pool, and do not wait for ever for each other. It is the one made by `init_global_thread_pool(num)` if that is called, with `num` threads or as many as the machine allows. Likewise all calls of `get_global_lru_cache` for the same types return the same cache.", "quantifier": "all schedules of any number of threads calling the functions any number of times, all numbers of threads asked for, all limits", "why_tests_cant": "First calls at the same moment do not happen reliably in a test, and there is only one first call in a program.", "anchors": ["rapidudf/executors/thread_pool.cc: get_global_thread_pool, init_global_thread_pool", "rapidudf/executors/thread_pool.h: ThreadPool::ThreadPool, ThreadPool::MaxThreads", "rapidudf/common/lru_cache.h: get_global_lru_cache"]}
{"id": "C184", "title": "The logger messages go to", "statement": "Messages of the library go to the logger last set with `set_default_logger`, and to spdlog's own logger before the first is set and after none is set. Setting a logger while other threads log loses no message and uses no destroyed logger.", "quantifier": "all schedules of any number of threads that log and set loggers, all sequences of loggers, whether or not the user keeps pointers to them", "why_tests_cant": "The moment between taking a logger's address and using it is too short for a test to hit reliably.", "anchors": ["rapidudf/log/log.cc: g_default_looger, set_default_logger", "rapidudf/log/log.h: RUDF_LOG"]}
{"id": "C185", "title": "Vector expressions whose operands do not go together are refused", "statement": "Compiling the text of an expression over numbers and vectors of integers fails if anywhere in it a condition is added, subtracted, multiplied, divided, negated or compared, a number or a vector of numbers is used with `&&`, `||`, `!` or as the condition of `?:`, the alternatives of `?:` are a condition and a number, vectors of different element types are operands of one operator or alternatives of one `?:`, or a name is not a parameter. No code is made that would treat one as the other.", "quantifier": "every text that reads as such an expression, at every depth, all parameters, all types of results, with and without a `Context`", "why_tests_cant": "mistakes can be anywhere in expressions of any size; tests refuse a few short ones", "anchors": ["rapidudf/ast/expression.cc: BinaryExpr::Validate, UnaryExpr::Validate, SelectExpr::Validate, IsValidSimdVectorBinaryOperands", "rapidudf/meta/dtype.cc: DType::CanCastTo", "rapidudf/compiler/compiler.cc: CompileExpression"]}
