# Design

This directory holds a Lean 4 model of parts of `rapidudf` (C++ source in `/repo/rapidudf`, read as text,
never built or run here) and theorems about that model. `properties.jsonl` lists the properties in
words, `MANIFEST.json` maps each property to the theorems that prove it (or prove its negation), and
`seeded/LOG.jsonl` records the deliberate model bugs used to test the theorems.

## Layout

* `lean/Verif/<Area>/Model.lean` — the model. Every definition cites file and lines in `/repo`.
* `lean/Verif/<Area>/Spec.lean` (or a `Spec` section) — small specifications independent of the model.
* `lean/Verif/<Area>/Lemmas.lean` — helper lemmas.
* `lean/Verif/<Area>/Props.lean` — the property theorems, one section per property, each with an
  `example` showing that a concrete case meets the hypotheses.

## Trusted base

* Lean 4.33.0's kernel, and the axioms `propext`, `Classical.choice`, `Quot.sound` (no others;
  no `sorry`, no `native_decide`, no `bv_decide`, no axioms of our own).
* The reading of the C++ source: the model is tied to the code only by the citations.
* External libraries are represented by their documented contract where they appear as parameters:
  Highway SIMD operations (lane-wise semantics, generic lane count), x86-simd-sort, `malloc`
  (returns a fresh, disjoint, 16-byte aligned range or fails), `boost::asio::thread_pool` (runs every posted task once),
  LLVM (an instruction does what the language reference says), the C++ standard library containers.
* Atomic operations are modelled as sequentially consistent single steps.
* Floating point: formats, comparisons, conversions to and from integers, max, min, rounding functions and the rounding of literals are modelled on bit
  patterns or exact rationals; sums, products, quotients and the functions of `math.cc` are not. Where a theorem about vectors or tables speaks about
  arithmetic on elements, the operation is a parameter.
* `nlohmann::json`, SLEEF and `llvm.pow` are represented by the contract stated next to the definition that uses them.
* The axioms each theorem of `MANIFEST.json` depends on are listed at the end of this file.

## How a property that is false of the code is handled

The desired property is kept as stated in `properties.jsonl`. The model follows the code. The file
proves (a) the negation, by a concrete witness or for a whole class of inputs (theorem names contain
`_violated`), and (b) the strongest positive statement we found, suffix `_partial`, with the missing part
named in a comment. Such properties are `partial` in `MANIFEST.json`, with a note.

Undefined behaviour (out-of-bounds access, division by zero, non-termination, use after free) is a
distinct outcome in the model, not assumed away.

## Plan per property

| id | property | model and proof |
|----|----------|-----------------|
| C01 | LRU cache behaves like a bounded recency list | Two-structure model (recency list plus key index); refinement to a list specification by induction over the operation list, with the index/list agreement invariant. |
| C02 | Cached expression evaluation returns the value of the requested expression | State machine of the process-wide cache keyed by source text; false of the code (argument names are not part of the key): negation with a witness, and a _partial theorem when every earlier call for the same source and signature used the same argument names. |
| C03 | eval_function never calls a destroyed function object | Reference-count model of the function object created in the compile loop; false of the code on the first call for a source (the only owner is the loop-local record): negation, plus _partial for the cache-hit path. |
| C04 | Function registry: first registration wins forever | Association-map model, induction over the registration list. |
| C05 | Loading a compiled function with the wrong signature is refused | Direct model of VerifyFunctionSignature; false of the code: negation for every mismatching signature, plus _partial: unknown names are refused. |
| C06 | Alignment helpers round up to the next multiple | BitVec model, proved by conversion to Nat arithmetic. |
| C07 | Arena allocations are disjoint, aligned and inside a live block | State machine with a nondeterministic system allocator; invariant on live ranges, block list and bump pointer, by induction over the history. |
| C08 | Arena byte accounting is exact | Invariant over the same state machine; the effect of failed allocations is stated as a separate negation. |
| C09 | Arena size limit is enforced | Invariant over the arena state machine. |
| C10 | Arena reset reuses memory | Potential argument on the block list kept by clear. |
| C11 | LevelDB-style arena allocations are disjoint | State machine and invariant. |
| C12 | Registered cleanups run exactly once, in order | Small-step interleaving semantics of the atomic operations; invariant relating list contents, pending inserts and executed log. |
| C13 | Resetting a context runs cleanups and forgets everything it owned | Object-lifetime state machine; false for GetPtr after Reset: negation with a witness, and a _partial theorem for histories with no typed pointer lookups before a reset. |
| C14 | String views compare equal exactly when their bytes are equal | Byte-level model of the 16-byte layout (size, prefix, inline tail or pointer into memory); equivalence proof by cases. |
| C15 | String view ordering is lexicographic by unsigned byte | Same layout model; proof that the prefix comparison followed by memcmp is lexicographic order. |
| C16 | Case-insensitive prefix and suffix tests ignore case | False of the code (case sensitive): negation witness; _partial: sound when the test returns true, and complete for strings without letters of differing case. |
| C17 | Setting one bit of a bit vector changes that bit only | Loop model with an explicit did-not-terminate outcome; false of the code when the byte becomes or is zero: negation; _partial: whenever the call returns, the frame law holds, with the exact termination condition. |
| C18 | Concurrent bit sets are not lost | Interleaving model of the retry loop as written; false: negation witness with two threads; _partial for threads working on distinct bytes. |
| C19 | Vector headers store sizes faithfully and compiled code reads the same size | BitVec model of the packed word; holds below 2^30; negation at 2^30. |
| C20 | Slicing stays inside the vector | uint32 model; false on overflow: negation; _partial when pos + len < 2^32. |
| C21 | Jagged vectors return the rows that were added | False for JaggedVectors: general theorem that Get(i) returns row i-1, negation; FixedSizeVectors round trip proved. |
| C22 | Dynamic object fields do not overlap | Layout model; holds for types whose storage size is what the type table reports; negation for the 16-byte float type, whose reported size is 0. |
| C23 | Parameter trees resolve names through ancestors | Recursive model of parent fallback, proved against a find-first specification. |
| C24 | Type descriptors round-trip through their control word | BitVec packing model, extract/insert laws. |
| C25 | Type descriptors are totally ordered | BitVec model with the 64-to-32-bit truncation; false: negation for equality, antisymmetry and transitivity; _partial on primitive types, where it is the enum order. |
| C26 | Pointer and vector type constructors invert | Model over descriptor records. |
| C27 | Value conversion between primitive types follows C++ conversion | Model of the switch with fall-through; false for negative 8-bit signed sources: negation; _partial for all other integer sources. Floating point types are not modelled. |
| C28 | Tuple arity is reported correctly | Model of the function; negation for pairs; _partial for the rest. |
| C29 | The lexer always makes progress and its tokens are slices of the source | Function-by-function model on byte lists; progress measure and coverage by strong induction. |
| C30 | Operator expressions parse with the documented grouping | Fuel-free recursive-descent model over token lists; print/parse round trip by mutual induction. |
| C31 | Source text that is not entirely a program is rejected | False for the single function and expression entry points: negation; proved for the multi-function entry point. |
| C32 | Error messages name the right line | Model of the line scan; false: negation witness; _partial characterising where it is right. |
| C33 | break and continue only inside loops | Structural induction over statements against an inductive predicate. |
| C34 | Flattened expressions evaluate like the expression tree | Compiler-correctness proof: post-order flattening and stack machine. |
| C35 | Integer literals denote themselves | Model of decimal to binary64 round-to-nearest-even on naturals and of the integer typing; false at 2^53+1: negation; _partial below 2^53. |
| C36 | Compiled control flow follows the source program | Model of the block builder and of CFG execution; false when an elif or else body ends in a nested statement that opens blocks, or code follows a jump: negations; _partial simulation theorem for the remaining programs. |
| C37 | Variables are independent | Model of variable slots and CopyFrom; false of the code (the new name shares the slot): negation; _partial for programs whose definitions have computed right-hand sides. |
| C38 | Unselected operands are not evaluated | Expression evaluator with division trap; false: negation witness; _partial: agreement whenever the eager evaluation does not trap, or the expression has no trapping operation. |
| C39 | Vector expressions are element-wise | Block-loop model with 64 lanes and tail filled with ones, traps explicit; false for integer division in padding lanes: negation; _partial for expressions whose padding lane does not trap. |
| C40 | Bit vector tail blocks stay inside their buffer | Arithmetic model. |
| C41 | Scalar subexpressions keep their value inside vector expressions | Model of leaf casting; false: negation with 32-bit overflow; _partial for scalar leaves. |
| C42 | Argument passing agrees with the platform calling convention | Model of the counting loop proved equal to a register allocation specification. |
| C43 | The implicit context argument is inserted at its place | List insertion model. |
| C44 | Numeric casts in compiled code preserve representable values | BitVec model of SExt/ZExt/Trunc selection. |
| C45 | Sum does not depend on the SIMD width | Block loop generic in the lane count, induction. |
| C46 | Minimum and maximum do not depend on the SIMD width | Block loop generic in the lane count. |
| C47 | find returns the first matching index | Block loop generic in the lane count. |
| C48 | gather is index-wise and safe | Model with out-of-bounds reads as a distinct outcome; false for a bad index in a full block: negation; _partial when all indices are in range. |
| C49 | filter keeps exactly the selected elements in order | Block loop generic in the lane count. |
| C50 | Byte match masks mark exactly the matching positions | Model with zero padded tail; false for a zero target: negation; _partial for non-zero targets. |
| C51 | average is defined for every non-empty vector | BitVec model with division trap; negation for 8-bit elements with 256 elements; _partial when the size fits the element type. |
| C52 | Counting set bits is exact | Model with 8-bit reduction; false for 32 or more byte lanes: negation; _partial for at most 31 byte lanes. |
| C53 | Bitwise operations on bit vectors are element-wise and keep padding clear | Byte-level model; element-wise part proved; padding part false: negation. |
| C54 | find_char returns the first position of a character | Block loop generic in the lane count. |
| C55 | find_string returns the first occurrence of a substring | Model as written, including the comparison at the block start; false: negations (missed occurrence and false occurrence); _partial for patterns of length 1 and 2 and for strings shorter than a block. |
| C56 | Splitting and joining are inverse up to empty pieces | Block loop generic in lane count, refinement to a list split. |
| C57 | Bottom-k and top-k selection return the right indices | Model parameterised by any selection satisfying the external contract. |
| C58 | Table filter and split keep rows aligned and ordered | Row-list model per row group, common filter. |
| C59 | Head and Tail return the first and last k rows | Head proved; Tail(0) returns all rows: negation; _partial for k >= 1. |
| C60 | Group-by partitions the rows | Model of the hash-map grouping with association lists; permutation and key lemmas. |
| C61 | Dedup keeps the first k rows of every key | Fold model with counters against an occurrence-count specification. |
| C62 | Distinct by several columns keeps one row per combination | False (conjunction of per-column masks): negation; _partial for a single column and for the second half. |
| C63 | Concatenation appends rows | List model. |
| C64 | Adding rows is all or nothing | Model of the group loop; false on failure in a later group: negation; _partial for histories without failures. |
| C65 | Foreach visits rows in order and stops when told | Loop model; also restart semantics. |
| C66 | Column selection options | Decision logic. |
| C67 | Parallel loops run every index exactly once | Model of Plan on 64-bit arithmetic; partition proof. |
| C68 | Parallel loops return only after all calls finished, and do return | Interleaving model of the barrier; safety invariant and enabledness. |
| C69 | Nested parallel loops on one pool complete | Model of pool threads and FIFO queue; false: stuck-state negation; _partial when an idle worker remains. |
| C70 | Thread-cached caches are isolated | Per-thread map over the C01 model; projection theorem. |
| C71 | iota produces consecutive values | Block loop model with an explicit buffer; invariant. |
| C72 | Distinct C++ types have distinct descriptors | Recursive model of get_dtype over a grammar of types; injectivity by induction on the grammar. Together with C181 for the identifiers drawn at run time; false for classes of different translation units: negation. |
| C73 | Element types of collection descriptors are the element types | Same model; false for the value type of maps to fundamental types: negation; _partial for the rest. |
| C74 | Columns show the table's current rows | State machine with the loaded flag and cached vector per column; false after a row change or a reload: negations; _partial for first reads and for histories without intervening change. |
| C75 | OrderBy and Topk return rows in key order | Sort as a parameter with a contract; the result is the selection of rows by the permutation. By column name: false before the column is read. |
| C76 | Ordering a table leaves it unchanged | Column state model; false: the key column is sorted in place while the rows are not; negation. |
| C77 | Map and FlatMap collect the results in row order | List model; equality with the list operations. |
| C78 | The mask of Filter tells which rows satisfy the predicate | Sequential loop by induction; pool version as interleaved byte read-modify-write: false, negation. |
| C79 | Rows inside a group keep the table's order | Proved for a key vector; false for column names, where the first row of a group ends last: negation. |
| C80 | A cached expression is compiled once | Same state machine; false for every signature after the first (the new record is added to a copy): negation for any number of repetitions; _partial for the first signature. |
| C81 | Evaluation may be nested | Lock as part of the call model; false on cache hits, whose code runs with the mutex held: negation; _partial for calls that compile. |
| C82 | eval_function runs a function of its own source | Same state machine; false because both functions share one cache: negation; _partial when their sources are disjoint. |
| C83 | Token texts determine the source up to spacing | Lexer model; induction over tokens. |
| C84 | The conditional operator needs no spaces | False: a colon after a name becomes part of the name; negation for every name; _partial with a space. |
| C85 | Parsing ends on every input | Fuel-recursive parser model; a fuel bound linear in the number of tokens is never exhausted. |
| C86 | No part of an accepted program is dropped | False: break or continue without semicolon is skipped; negation; _partial for the other statements. |
| C87 | An index literal denotes its value | False for literals with fraction, exponent, suffix or too many digits: negation; _partial for plain digits below 2^32. |
| C88 | A built-in function called with a wrong number of arguments is refused | False: the arguments of all calls share one stack, so surplus arguments of one call feed another; negation; _partial: the total number of arguments is right. |
| C89 | A return statement is checked against its own function | False for every function but the first: negation; _partial for the first and for functions returning the same type. |
| C90 | A suffixed integer literal has the value written or is refused | False: out-of-range literals wrap; negation; _partial in range. |
| C91 | A literal with a decimal point is a floating point number | False for every literal with a zero fraction: negation; the types are characterised. |
| C92 | A function with a return type returns a value it computed | Block model of C36 with a return slot that starts without value; false: falling off the end or `return;` is accepted and reads the uninitialised slot; negation; _partial when every path ends in a return with a value. |
| C93 | Operands are evaluated in written order | Code generation as a two-pass translation of the flattened expression into three-address code; simulation against a left-to-right evaluator; false with nested assignments (calls run in the first pass, variables are loaded late): negation; _partial for expressions without assignments. |
| C94 | Exactly the well-typed expressions are compiled | A recursive typing function as specification; equivalence with success of the code generator by induction on the expression and on the list of statements; types carry whether an expression stands for a variable, which assignments need. Arrays and member accesses are not scalar expressions (C34, C88). |
| C95 | Comparisons of integers are right | Bit-vector model of casts and comparisons; false for signed against an unsigned type at least as wide: negation for every such pair of types; proved for all other pairs and for all values that fit into the common type (_partial). |
| C96 | Integer arithmetic is exact or wraps | Bit-vector model; lemmas on residues; mixed types false (operands converted to a type that cannot hold them): negation; exactness for operands that fit. |
| C97 | Negation and absolute value | Bit-vector model; abs false for unsigned types (vectors of unsigned numbers are accepted): negation for every value above half the range; _partial otherwise. |
| C98 | Vector operators take their number of operands | Both passes over the flattened expression with an explicit outcome for reading outside the operand stack; false: a surplus operand makes the result the first one, a missing operand is read outside the stack: negation; _partial: expressions with the right numbers are compiled without such accesses. |
| C99 | A call of a vector function is an operand like any other | False: the typing pass leaves the arguments of a call on its stack, so in a right operand the argument is taken for the left operand: negation; _partial for calls in first operands, through the elementwise theorem. |
| C100 | Slices of bit vectors can be used like bit vectors | Arithmetic on byte offsets; false for slices that do not begin at a multiple of 64: negation; _partial otherwise. |
| C101 | A new vector has room for its elements | 32-bit arithmetic; false from 2^32 bytes on: negation; _partial below. |
| C102 | A compiler object can be used again and again | State machine over the parse context with its function cursor; false: the cursor is not reset, so after a script of several functions single functions and expressions that call registered functions are refused: negation; proved for scripts, for compilers that have not seen scripts of several functions, and that history can only cause refusals. |
| C103 | Exactly the well-scoped scripts are compiled | Validation of all functions with its tables, against an independent definition of scope; induction over the functions with an invariant on the tables; false for functions named like an operator: negation and _partial. |
| C104 | A call runs the function it was checked against | Both passes modelled, code generation looks up external declarations first; false when a script defines a function with the name of a registered function that it called before: negation; _partial without such names. |
| C105 | Chains of accesses | Both walks along the chain with the list of accessor functions; what is compiled is right, by induction; false that all is compiled: a bracket access after a field access is refused: negation and exact characterisation (_partial). |
| C106 | Searching std::vector objects from scripts | Loop with elements held by value or by address; false for vectors of objects, where addresses are compared, and for places from 2^31 on: negations; _partial otherwise. |
| C107 | Reading and writing std::vector objects from scripts | Checked-access model with null and out-of-range outcomes; false for add on a null vector: negation; _partial. |
| C108 | Maps and sets from scripts | Association list against an abstract map; false for maps to objects, where a missing key gives a null reference: negation; _partial. |
| C109 | Splitting a string at a string | The loop over the vectorised search against an inductive specification with unique result; false for separators of three or more bytes (the search skips) and undefined for empty ones: negations; _partial. |
| C110 | Comparing vectors of strings | Loop invariant over written bits, on top of the string view comparison. |
| C111 | One arena shared by several threads | Interleaved state machine with the mutex and thread-specific pointers; inductive invariant; Reset and MemoryUsage are exact when other threads are outside; false that they may run beside allocations: reachable racing state as negation. |
| C112 | Comparing floating point numbers | IEEE formats at bit level with the LLVM fcmp predicates chosen by the code; proved equal to the order of values; false for != with a NaN: negation for every NaN. |
| C113 | Comparing an integer with a floating point number | Model of rounding to nearest even at bit level; exactness up to the width of the significand; monotonicity for all integers; false beyond: 2^53+1 == 2^53. |
| C114 | Converting a floating point number to an integer | Bit level model of fptosi, fptoui, sitofp, uitofp; specification of truncation by inequalities; exact set of inputs with an undefined result. |
| C115 | Maximum and minimum of two numbers | LLVM's smax/umax/maximum and their duals at bit level against the order of values. |
| C116 | Powers of integers | The conversions to f64 and back at bit level around a pow that is exact on representable powers; false from 2^53 on (3^35 can never come out) and out of range. |
| C117 | Rounding functions on scalars and vectors | Rounding rules on exact rationals for both dispatch tables; false for round half way between two integers: exact set of differing inputs. |
| C118 | clamp and abs_diff on scalars and vectors | Scalar functions with undefined outcomes, vector functions as wrapping integers; agreement under the precondition; exact behaviour outside. |
| C119 | Kernels on blocks of 64 elements | Partial memory with loads and stores of N lanes; loop invariant. |
| C120 | Access to JSON values | Recursive model over nlohmann's contract; exact characterisation of found, throwing and undefined accesses; undefined for a missing member or element. |
| C121 | Reading JSON numbers as integers | Model of get<T> with static_cast; exact for numbers that fit; false otherwise: integers are cut, large floating point numbers undefined. |
| C122 | Adding columns to a schema | Loop model with an invariant relating columns, names and offsets; successes exact; false for failures: the columns added before stay and point to a freed row schema. |
| C123 | Columns by name | Invariant: the k-th column lies at offset header + 16 k and is registered under its name. |
| C124 | A column shows the rows of its own set | Lookup of the set of rows by equality of row types; proved for distinct row types; false if a row type is added twice under two prefixes. |
| C125 | Extending a schema that is in use | Buffer identity of the vector of columns; exact condition; false when the vector grows beyond its capacity. |
| C126 | One schema for a name | Registry as a fold over requests in the order of the mutex; refinement to first request wins; false for initialisers that use the registry (self-deadlock), for a table asked for under the name of an object, and for unknown tables. |
| C127 | Cells of struct columns | Type-indexed model: reading memory as another type is undefined. Complete classification of all types into shown, lost, refused and not loadable; false for twelve kinds of members that are accepted and shown as empty. |
| C128 | Cells of protobuf columns | Field types, accessors of the reflection interface with their precondition; exact for single fields; false for repeated fields: the cell refers to a copy that has been destroyed. |
| C129 | Cells of flatbuffers columns | Field types, stored values as options; exact for stored values; false for missing values with a default, missing strings and missing vectors. |
| C130 | Names of types tell types apart | Text as a list of characters; the expected text by recursion on C++ types; reading a text back; false for pointers and collections as elements, arrays of different lengths, tuples and maps to classes. |
| C131 | Members registered for a type | Registry as a fold over the history; refinement to first-of-its-kind; false for types with collections or pointers as elements, which share one entry. |
| C132 | Member functions of several types in one script | Tables of symbols (first wins), declarations (last wins) and names in the module (duplicates renamed); exact outcome of a call; right if texts of types are apart; false if two names coincide: the script can not be linked. |
| C133 | Types registered before a script is compiled are known to it | Transition system with arbitrary visiting order; exact answer for every history; false for registrations after the last compiler was created and for names given to primitive types. |
| C134 | Compilers on several threads share the table of type names | Transition system with mutex and once flag; invariant; false when one thread compiles while another one creates a compiler. |
| C135 | An integer expression computes what is written | Composition of lexer, parser, reverse Polish form, code of expressions, literals and integer operators; specification by recursion on a separate language of arithmetic. Validation, which has its own idea of types, accepts what is well typed. Expressions whose unneeded operands may be undefined are left to C38, literals from 2^53 to C35, negated choices between different types to C142. |
| C136 | A function of integers does what its statements say | Composition of the statement parser, basic blocks, slots of variables and code of expressions; specification: a separate language of statements with stores. Simulation by induction on statements and iterations. Validation of statements accepts what is well typed. Excluded: variables defined by another variable alone (C37) or by a choice between different types (C142), control that C36 excludes. |
| C137 | A string literal is the string it stands for | Composition of lexer and parser with the words the code generator stores and the layout of a view. False for literals with a backslash: it stays in the string. |
| C138 | A variable that is read has been given a value | Validation over the text against all paths through the statements; true if variables are defined with a value and not used after their block; false in general: variables live in the function, not in the block. |
| C139 | A variable assigned on every path has a place | Code generation over the text makes the place at the first assignment; simulation along paths. False for a variable that gets its first value in a branch. |
| C140 | The stack used by a call does not depend on the number of iterations | Count of places made along paths. True if nothing inside a loop makes one; every other loop uses any amount of stack. |
| C141 | What validation accepts is compiled | Validation as a function to types and needed functions; code generation as in C93 with concrete types; induction on expressions and statements. False for assignments of another type of number, for updates by a larger type, for a std::string passed for a view, for a variable used in its own definition. |
| C142 | Validation predicts the types of the compiled code | Induction on expressions. Exact unless c ? t : f has a t of a larger type of number than f; then both are numbers. |
| C143 | Functions that call each other compute what their text says | Specification: a separate language of functions with call depth and iterations bounded by a number, and the union over all numbers. Code is compiled against the functions known so far; induction on the list of functions, then on the depth of calls. Excluded: calls and divisions in operands that may not be needed (C38), variables defined by another variable alone (C37) or by a choice between different types (C142), control that C36 excludes. |
| C144 | A vector expression of integers computes element by element what its text says | Specification: the value of the expression at one element, with short-circuit operators, and the list of these values. Parser (C30), reverse Polish form, types from validation, and the code of vector expressions (C39) put together; induction on expressions for types, values and definedness of the unused lanes. |
| C145 | A number may be the first alternative of a selection | False: a selection that is the whole expression takes the type of its first alternative for the result. True in parentheses, inside a larger expression, and if the number has the type of the elements. |
| C146 | Distances between vectors are computed from matching elements | Loops over blocks with accumulators in lanes; invariant: the sum over all lanes is the sum over the elements before the index. Rounding is not modelled: the laws of exact arithmetic are hypotheses. |
| C147 | The dot product reads only its vectors | Highway's Dot::Compute by its documented preconditions. False for vectors with fewer elements than lanes: they are promised to be padded. |
| C148 | Objects of the syntax tree are destroyed once, and before their memory is used again | The pool on the model of the arena (C07), with a log of creations, destructions and reuse; invariant by induction on the history. |
| C149 | Names of built-in functions tell operations and types apart | Ways to cut a joined text at another underscore; the finitely many cuts of the names of types are checked against the table of operations. |
| C150 | A compiled function keeps its code | Function objects, compilers and reference counted code generators as a state machine; invariant by induction on the history. |
| C151 | A function object tells whether it came from the cache | Same state machine with the flag as possibly unwritten. False: a move does not carry the flag. |
| C152 | An expression of integers and floating point numbers with built-in functions computes what it says | Parser, validation and code generator composed; types and values of the specification by induction on the expression. Floating point arithmetic and the mathematical library are a parameter. |
| C153 | A function over vectors computes, element by element, what its statements say | Parser, validation, block loop and assignments composed; invariant: every variable's memory holds its elements, and readable bits in the unused lanes of the last word; induction on the statements. |
| C154 | A vector variable made from another vector is a copy | Model of C153. False for `auto y = x;`: the new variable becomes the value of the old one, later assignments to either are seen by both. True when the variable already has a vector. |
| C155 | Assignments of vectors that validation accepts can be compiled | Model of C153. False: a vector and a number can be assigned to each other according to validation, but not in code. |
| C156 | A function over tables returns the rows its statements describe | Parser, vector expressions (C153) and table operations (C55–C75) composed over a memory of tables with cached columns. Invariant: every cached column that has not been a sort key holds the values of the rows; induction over chains and statements. |
| C157 | Sorting a table does not change the columns of the table that was sorted | Model of C156. False if the key is a column by itself: the cached column is sorted in place, the rows are not; later filters and sorts by it select the wrong rows. True for computed keys. |
| C158 | A function over booleans, integers and floating point numbers with built-in functions does what its statements say | Composition of the statement parser, validation, basic blocks, slots of variables and the expressions of C152; specification: a separate language of statements with stores. Simulation by induction on statements and iterations. Only the conversion at `return` can leave poison; returning it is undefined. |
| C159 | A method called from a script is the method registered under its name | State machine of the static variables and the registry; the slot of a key holds the method of every registration with that key. FNV-1a is injective in each character and in the state, since the prime is odd. |
| C160 | Sizes, searches and flatbuffers elements of message containers | Induction over the search loop; sizes below 2^31 by protobuf's own limit. |
| C161 | Elements and fields of protobuf messages are given or an error is reported | Model of C160 with undefined behaviour as outcome. False: indices outside are not checked, a missing key of a map to messages gives the null pointer, string setters do not look at the pointer. |
| C162 | An expression with strings computes what it says | The pipeline of C152 with a further type, whose values are the 16-byte views of C15; method calls are calls with the object as first argument. Types and values by induction on the expression; the comparison of views is that of C15. |
| C163 | A function with strings does what its statements say | The composition of C158 with the expressions of C162; a value at run time represents a value of the specification, since views of equal strings can differ in unused bytes. Simulation by induction on statements and iterations. |
| C164 | Sorting in place rearranges the vector and nothing else | Memory of buffers with vectors as views of them; the sorting library is a parameter with its documented contract (a sorting library meeting it is given). Frame property of each call, then induction over the history. |
| C165 | Strings in vectors and columns are compared one by one | Instances of C153 and C156, whose expressions include comparisons of strings: what memory holds behind the sixteen bytes of a string view is a parameter, of which only what the constructor does is assumed. |
| C166 | A function over the fields of structs does what its statements say | Fields are places in memory behind the slots of the arguments; the simulation of C163 starts from any typed set of places, so it remains to show that different paths lead to different places. False of boolean fields, which validation accepts and code generation refuses. |
| C167 | A vector made from a std::vector shows its elements | Memory as bytes; refinement of lists of elements: an invariant (ranges that do not overlap) by induction over the history. For booleans induction over the loop. False of vectors that must not be written: setting an element writes through the null pointer. |
| C168 | A string made in an arena lives in that arena | Bodies of strings with the arena and the number of resets when their memory was given; invariant over the history by induction, once for histories with assignments inside one arena and once for histories without resets. False of assignments between arenas: the allocator goes along with the assignment, so the text is in the other arena. |
| C169 | Sorting starts from the numbers of the rows on every thread | Steps of threads over the shared vector of numbers; invariant over all orders once the vector is made; induction over the loop for the first call alone. False of first calls at the same time: a thread can read the numbers before they are written. |
| C170 | A function over dynamic objects does what its statements say, and the host sees it | The layout of C22 makes the schemas a registry of structs as in C166, whose simulation applies; host and compiler find the same place. That nothing else changes follows from the generated code: every store goes to the place of a named variable or to a new slot, by induction over code generation. |
| C171 | Evaluating the text of an expression gives its value, through the cache and on every thread | The cache of C02 with the compiler of C162 as its compiler; the invariant of the cache over all interleavings gives code compiled from the same text, whose value is that of the expression. |
| C172 | Tables made from tables hold their own rows, found where they belong | Pointers to tables in memory against independent lists of rows: refinement by induction over the history, with the invariant that only tables returned as they are are pointed to twice. False of `Head(k)` and `Tail(k)` with at least as many rows asked for as there are: they return the table itself, so rows added to the result show in the table. |
| C173 | A parameter tree shows what was written last at every place | Trees against a list of entries (path, value): the subtree behind a key is the tree of the entries behind it, by induction over the history; then induction on the path read. |
| C174 | Tables made from tables outlive them | The refinement of C172 with the tables destroyed and those the context owns; invariant over the history. False of `Head(k)` and `Tail(k)` that return the table itself: the result dies with it. |
| C175 | A destructor run by the context can read the memory the context gave out | The arena of C07 with owned objects; the invariant that pieces of at most 4080 bytes lie in blocks that a reset keeps, by induction over the history. False of larger pieces: `Reset` frees their blocks before it runs the destructors. |
| C176 | Grouping by columns goes by the values in them | Columns as little-endian bytes; keys are offsets into them, hashed and compared by type. Values are normalised (both zeros to one) and the loop over keys is simulated by the loop of C60. False of booleans (never equal), of floating point numbers that do not convert to `size_t`, and of no columns: negations. |
| C177 | Rows are taken out of tables at the types they were put in with | Objects that carry their type; the invariant that each group holds objects of its type, by induction over the history, and that all groups are equally long. False after an `AddRows` that is refused halfway: the groups then have different lengths and `Foreach` reads past the end. |
| C178 | Random vectors follow their seed | The library's generator is a parameter, kept in the table of objects of the context model of C13; induction over the history. False of later seeds (ignored), of a repeated request (it continues the sequence) and after a reset (the destroyed generator is used): negations. |
| C179 | Objects made in an arena release what they own elsewhere | Types as a tree, objects indexed by them, destructors as what they release; induction over the type. False of standard containers of elements that need no destructor (they count as arena containers, their memory is never freed) and of disabled destructors inside maps: negations. |
| C180 | Multiply-add functions of scalars and vectors | Finite numbers as rationals with the rounding as a parameter; case analysis, and an error bound for every rounding of bounded relative error. False of fms, fnma and fnms on scalars of processors with fused instructions and of fma on vectors without them: negations. |
| C181 | Numbers of C++ types | Threads, the guarded variable of each type and the counters as a transition system; an invariant over all schedules (numbers drawn are the start plus the position in the order of drawing, at most one thread initialises a variable). False of get_dtype for classes of different source files, since nextTypeId is static in a header and every file has its own counter: negation. |
| C182 | A message logged once in n times | Every access to the counter as a step of a thread. Proved for executions that do not overlap, by induction over them; an invariant over all schedules bounds the counter, hence after any overlapping executions of T threads a message comes again within n·T executions. False of overlapping executions, which lose messages: negation. |
| C183 | One thread pool for the program | Threads, the once flag and the variable as a transition system; an invariant over all schedules. Proved without initialisation and for an initialisation that returns before other calls. False when it runs at the same time as a call of get (its check and store are outside the once flag) or later, and of machines whose limit is zero: negations. |
| C184 | The logger messages go to | Every access to the shared pointer as a step of a thread; the history of settings and messages checked against a specification, by an invariant over all schedules. Proved when loggers are set between messages, and (no loss, no undefined behaviour) when the user keeps all loggers and never sets none. False otherwise: negations. |
| C185 | Vector expressions whose operands do not go together are refused | Specification: which expressions read as conditions, numbers and vectors of a type, and an inductive definition of a mistake in an expression. Induction on it over the types computed by validation, in the model of C144. |

## Which code is modelled

Paths are below `/repo/rapidudf`, modules below `lean/Verif`. "Rest" of a file means what is not named here; it is not modelled.

| source | modelled | module |
|--------|----------|--------|
| `common/lru_cache.h` | the cache (all members) and the per-thread caches | `Lru` |
| `common/allign.h`, sizing helpers of `types/bit.h` | rounding up to alignments | `Memory.Align` |
| `memory/arena.h`, `arena.cc` | `Arena`, `ThreadCachedArena` (mutex, thread-specific pointer as atomic steps) | `Memory.Arena`, `Memory.Threads` |
| `memory/folly_arena.*` | `allocate`, slow path, `merge`, size limits | `Memory.Arena` |
| `memory/leveldb_arena.*` | `Allocate`, `AllocateAligned`, fallback, usage | `Memory.LevelDb` |
| `executors/thread_pool.h` | `Run` (splitting, counters, barrier), nested calls | `Pool` |
| `common/AtomicIntrusiveLinkedList.h` | insertion and sweep, interleaved | `Ctx.CleanupList` |
| `context/context.*` | `New`, `GetPtr`, `Own`, `Reset`, destruction; size computation of `NewEmptyVector` | `Ctx.Context`, `Gen.VecBits` |
| `types/string_view.*`, `bit.h`, `vector.h`, `vector2d.h` | construction, comparison, bits, slices, resize, jagged rows | `Types` |
| `types/dyn_object*`, `params.*` | layout, get, set, schema lookup; scopes, `Contains`, `Get`, `SetParent` | `Types.DynObject`, `Types.Params` |
| `meta/dtype.*`, `dtype_enums.h` | packing, predicates, order, conversions, `get_dtype` recursion, texts of types, factory | `Types.DType*`, `Types.GetDType`, `Types.Convert`, `Types.Names` |
| `reflect/reflect.*` | registry of members | `Comp.Members` |
| `ast/symbols.*` | names of types, threads | `Ast.Symbols`, `Ast.SymbolsRace` |
| `meta/function.*`, `meta/optype.h` | registry, signature checks, context argument, `byval` and `sret` decisions, names of built-in functions | `Func.Registry`, `Func.CallConv`, `Func.OpNames` |
| `ast/ast_pool.h` | objects of the syntax tree | `Ast.Pool` |
| `reflect/stl.h` | vector, set, map member functions | `Func.Stl` |
| `reflect/protobuf.h`, `flatbuffers.h` | repeated fields, maps, vectors, setters of strings | `Func.Pb` |
| `meta/function.h` (`MemberFunctionWrapper`, `fnv1a_hash`) | methods of classes called through wrappers | `Func.Wrapped` |
| `functions/json.cc` | access and integer extraction | `Func.Json` |
| `functions/math.cc` | `clamp`, `abs_diff` of integers | `Gen.MathFns` |
| `functions/strings.cc` | comparison of blocks of strings | `Simd.StrCmp` |
| `functions/simd/bits.cc` | logic operations, `count_true` | `Simd.Bits` |
| `functions/simd/string.cc` | find, split at a byte, split at a string | `Simd.Search`, `Simd.Split` |
| `functions/simd/vector_misc.cc` | reductions, gather, filter, match, distances | `Simd` |
| `functions/simd/vector_{unary,binary,ternary}.cc` | transform loops; rounding, clamp, abs_diff lanes | `Simd.Transform`, `Gen.MathFns` |
| `functions/simd/vector_sort.cc` | sort, argsort and top-k as used by tables; sorting in place on shared memory (sorting networks trusted) | `Tbl.Order`, `Simd.Sort` |
| `table/table.*`, `row.*`, `column.cc` | rows, add, insert, filter, head, tail, distinct, group, merge, order, foreach, lazy loading and unloading | `Tbl` |
| `table/table_schema.cc`, `column.cc` (getters), `types/dyn_object_schema.cc` | AddColumns, column lookup, cells of struct, protobuf and flatbuffers rows, the registry of schemas | `Tbl.Schema`, `Tbl.Cells`, `Types.Schemas` |
| `exec/eval_engine.h` | cache of compiled expressions and functions | `Exec` |
| `ast/lexer.*` | tokens, positions, keywords, literals | `Ast.Lexer`, `Ast.Literal`, `Ast.Lines` |
| `ast/grammar.cc` | all parse functions | `Ast.Parser`, `Ast.Total`, `Ast.Sound` |
| `ast/statement.cc`, `context.cc`, `expression.cc` | validation of statements, scopes, reverse Polish form, access chains; types of operands abstract | `Ast.Validate`, `Ast.Rpn`, `Comp.Access` |
| `compiler/compiler_statements.cc`, `codegen.cc` | basic blocks of if/while/return/break/continue, slots | `Gen.Cfg` |
| `compiler/compiler_expressions.cc`, `compiler_eval.cc`, `codegen_{unary,binary,ternary,value,cast}.cc` | evaluation order of scalars, integer operators, comparisons, conversions | `Gen.Scalar`, `Gen.IntOps`, `Gen.FloatOps`, `Gen.MathFns` |
| `compiler/codegen_vector.cc`, `compiler_eval.cc` | loop over blocks of 64, padding, bit vectors | `Gen.Vec`, `Gen.VecBits` |
| `compiler/compiler.cc` (`CompileExpression`), `codegen.cc` (`DefineFunction`, `Return`), `compiler_constants.cc` | the way from the text of an integer expression to its value, with its validation (`ast/expression.cc`) | `Comp.Pipeline` |
| `compiler/compiler.cc` (`CompileExpression`), `compiler_constants.cc`, `codegen_cast.cc`, `codegen_unary.cc`, `codegen_binary.cc`, `codegen_ternary.cc`, `ast/expression.cc` (validation), `functions/math.cc` (types of the functions) | the way from the text of an expression of integers, f32, f64 and built-in functions to its value | `Comp.Real` |
| `compiler/compiler.cc` (`CompileExpression`), `compiler_eval.cc`, `ast/expression.cc` (types of vectors) | the way from the text of a vector expression of integers to its elements | `Comp.VecPipe` |
| `compiler/compiler.cc` (`CompileFunction`), `compiler_statements.cc`, `compiler_eval.cc` (`BuildVectorIR` with assignments), `value.cc` (`CopyFrom`) | the way from the text of a function over vectors with local variables, built-in mathematical functions and comparisons of strings to the vector it returns | `Comp.VecFn`, `Comp.VecWords` |
| `compiler/compiler_expressions.cc` (calls on tables, columns), `ast/expression.cc` (`FieldAccess::Validate`), `functions/simd_table.cc`, `table/table.cc` (`LoadColumn`) | the way from the text of a function over tables to the rows it returns; columns of integers, floating point numbers and strings | `Comp.TableFn`, `Comp.VecWords` |
| `compiler/compiler.cc` (`CompileFunction`), `compiler_statements.cc`, `codegen.cc` | the way from the text of a function of integers to its result, with the validation of statements (`ast/statement.cc`, `ast/function.cc`) | `Comp.Function` |
| the same with floating point numbers and built-in functions | the way from the text of a function over booleans, integers, f32 and f64 to its result | `Comp.RealFn` |
| the same with strings: `codegen_binary.cc` 318–330, `codegen_value.cc` 86–148, `compiler_expressions.cc` 48–97, `expression.cc` 213–286 and 480–490, `functions/strings.cc` 73–105 | the way from the text of an expression over strings, booleans and numbers to its value; arguments and results are views made by the constructor of `StringView` | `Comp.Words` |
| functions with strings: the code of the rows on functions and on expressions with strings | the way from the text of a function over strings, booleans and numbers to the results of its calls | `Comp.WordsFn` |
| fields of structs: `expression.cc` 216–285 and 659–673, `compiler_expressions.cc` 48–97 and 115–155, `codegen_value.cc` 194–207, `reflect.cc` 46–72 | functions whose arguments include objects of registered structs; numbers, strings, booleans and embedded structs as fields, one cell each. Not: fields that are vectors, pointers or containers, methods of structs, two arguments that are the same object | `Comp.FieldsFn` |
| dynamic objects in functions: `function.cc` 33–52, `symbols.cc` 197–212, `expression.cc` 216–243, `compiler_expressions.cc` 76–97, `dyn_object_impl.h` 24–68 | functions whose arguments include objects of schemas, with the `Set` and `Get` of the host; numbers, strings and booleans as fields, one cell each; that all other contents are kept. Not: vectors as fields in statements, an object of another schema than that of the argument | `Comp.DynFn`, `Comp.FieldsFrame` |
| context/context.h 104–149 | `NewVector` from numbers, string views (shared, cloned) and booleans; `Vector::Set` and `operator[]` on memory | Verif/Ctx/NewVector.lean |
| memory/arena_string.h, memory/allocator.h | constructors, copy and move assignment of `arena::String` over libstdc++'s `basic_string` | Verif/Memory/ArenaString.lean |
| table/table.cc 48–62, 282–290 | `get_indices` on several threads, `Table::GetIndices` | Verif/Tbl/Indices.lean |
| types/params.h, types/params.cc 22–183 | parameter trees without parents: making places, writing, reading | Verif/Types/ParamTree.lean |
| table/table.cc 89–93, 249–262, table/table_schema.cc 98–110, context/context.cc 40–51 | lifetimes of tables: destroying, the context's tables, reset | Verif/Tbl/Lifetime.lean |
| context/context.cc 32–51, context/context.h 165–186, memory/folly_arena.h 112–122 | order of the reset of the arena and of the destructors | Verif/Ctx/ResetOrder.lean |
| table/table.cc 556–567, 665–699, table/table.h 546–565, meta/dtype.cc 361–475 | keys of several columns: `ByteSize`, `Equal`, `Hash` and the grouping loop over them | Verif/Tbl/KeyBytes.lean |
| functions/simd/vector_misc.cc 297–309, 632–636 | vectors of random numbers: which generator, which seed, where they are written | Verif/Ctx/Random.lean |
| `ast/expression.cc` 286–657 (refusals) | Expressions over integers and vectors of integers with operands that do not go together | `Comp/VecMistake` |
| `log/log.cc` 18–22; `log/log.h` 28–35 | setting the logger, and the accesses of a message to it, on several threads | `Log/Logger` |
| `executors/thread_pool.cc` 20–30; `executors/thread_pool.h` 53–61; `common/lru_cache.h` 169–177 | the pool and the cache of the whole program: once flag, threads | `Pool/Global` |
| `meta/dtype.h` 247–538 | descriptors of types with the numbers of classes drawn at run time | `Types/Descriptors` |
| `log/log.h` 45–56 | the macro that logs once in n times, step by step on several threads | `Log/EveryN` |
| `meta/typeid.h` 21–34; `context/context.h` 198–202; `context/context.cc` 27–30; `meta/dtype.h` 247–250, 534 | numbers of types: guarded variables, counters, threads, translation units | `Types/TypeIds` |
| functions/math.cc 319–325, 345–356, compiler/codegen_ternary.cc 60–67, functions/simd/vector_ternary.cc 39–55 | `fma`, `fms`, `fnma`, `fnms` of floating point numbers | Verif/Gen/MulAdd.lean |
| memory/arena.h 39–48, 125–159, memory/allocator.h 80–100, memory/arena_container.h 33–119, meta/type_traits.h 112–123 | destruction of objects made in an arena: which destructors are run, what they release | Verif/Memory/Destroy.lean |
| table/table.cc 293–304, 64–67, table/table.h 136–307, 354–398, 418–466, 715–732 | types of rows: `Validate`, `Foreach`, `GetRow`, `Distinct` and `Map` at named types | Verif/Tbl/Typed.lean |
| exec/eval_engine.h 113–173, compiler/compiler.h 104–157 | `eval_expression` from text to value, with the cache | Verif/Exec/EvalText.lean |
| table/table.h 136–189, table/table.cc 64–87, 249–262, 409–443, 732–764 | histories of tables made from tables, `GetRow`, pointers to the same table | Verif/Tbl/History.lean |
| `compiler/compiler.cc` (`CompileSource`), `codegen.cc` (`CallFunction`), `ast/context.cc` (`CheckFuncExist`) | several functions of one text, calls, recursion, registered functions without effects, with their validation | `Comp.Script*` |
| `ast/lexer.cc` (`ReadString`), `compiler/codegen_value.cc` (`NewStringView`) | string literals from the text to the view | `Comp.StrLit` |
| `ast/expression.cc`, `ast/context.cc` (variables), `compiler/value.cc` (`CopyFrom`), `compiler_statements.cc` | variables of a function, their places and the stack, along all paths | `Comp.Vars` |
| `ast/expression.cc` (types of operators, selections and calls), `meta/dtype.cc` (`CanCastTo`), `meta/function.cc` (`ValidateArgs`) | types in validation against types in code generation, functions declared | `Comp.Accept` |
| `compiler/function.h`, `compiler.h` | function objects, moves, shared code generators | `Comp.Holder` |
| `compiler/compiler.*` | parse and compile sessions, call targets, lookup of compiled functions | `Comp.Session` |

Abstractions that matter when reading the theorems: the depth of the C++ stack is unbounded in the parser; expression meaning is a parameter in `Ast.Rpn`, `Gen.Cfg`,
and (through a record of run-time operations) in `Gen.Scalar` and `Gen.Vec`; a trap discards earlier effects in `Gen.Scalar`; `Gen.IntOps` uses LLVM's integer semantics;
`Comp.Session` reduces bodies to their effect on the function table.

## Not modelled

Machine code generation by LLVM; `meta/operand.h` tables; Highway's `Dot::Compute` (taken by its documentation); logging; build
files; `functions/time.cc`; rounding in floating point kernels, trigonometric and exponential functions; random numbers; `examples/`; tests.

## How the theorems were tested against wrong programs

For each line of `seeded/LOG.jsonl` a scratch copy of `lean/` was edited at one definition and rebuilt. The failed theorems are those of `MANIFEST.json` whose own
proof fails or that depend on a declaration which fails. An edit after which a theorem still proved although its claim was false of the edited program led to the tightening
recorded in that line.

## Where the code differs from the property

* **C01** (LRU cache behaves like a bounded recency list). For positive capacities. The two _violated theorems show the limits: capacity 0 is undefined behaviour, and lowering the capacity leaves the cache above it. Theorems: `Lru.lru_zero_capacity_violated`, `Lru.lru_lowered_capacity_violated`.
* **C02** (Cached expression evaluation returns the value of the requested expression). False of the code: the argument names are not part of the cache key. Proved for all interleavings of threads when equal source and signature come with equal names and eval_function is not used on the same sources. Theorems: `Exec.eval_expression_names_violated`, `Exec.eval_expression_error_hidden_violated`, `Exec.EvalText.swapped_names_violated`.
* **C03** (eval_function never calls a destroyed function object). False of the code: the first successful eval_function for a source calls a destroyed object, in every reachable state. All other calls are proved to be on live objects. Theorems: `Exec.eval_function_first_call_violated`.
* **C05** (Loading a compiled function with the wrong signature is refused). False of the code: the result of the signature comparison is discarded, so every requested signature is accepted (proved for all signatures). Only unknown names are refused. Theorems: `Func.load_ignores_signature_violated`.
* **C06** (Alignment helpers round up to the next multiple). The last theorem shows the no-overflow hypothesis is needed. Theorems: `Memory.align_to_overflow_violated`.
* **C07** (Arena allocations are disjoint, aligned and inside a live block). For alignments up to the 16 bytes guaranteed by the system allocator (the default); above that the property fails (last theorem). Theorems: `Memory.arena_over_aligned_violated`.
* **C08** (Arena byte accounting is exact). Histories without a failed allocation, as in the statement; a failed allocation is counted (last theorem). Theorems: `Memory.arena_failed_allocation_counted_violated`.
* **C11** (LevelDB-style arena allocations are disjoint). For non-zero sizes that do not wrap when padding is added. Theorems: `Memory.LevelDb.leveldb_aligned_overflow_violated`.
* **C13** (Resetting a context runs cleanups and forgets everything it owned). False of the code: Reset keeps the typed pointer table, so a lookup after a reset returns a destroyed object. Exactly-once destruction is proved for all histories, absence of dangling results for histories that do not look a type up across a reset. Theorems: `Ctx.Context.context_getptr_dangling_violated`.
* **C15** (String view ordering is lexicographic by unsigned byte). For strings below 2^31 bytes as the statement says; the last theorem shows the bound is needed. Theorems: `Types.Str.string_compare_long_violated`.
* **C16** (Case-insensitive prefix and suffix tests ignore case). False of the code: letters are never folded. What remains true is stated by the partial theorem. Theorems: `Types.Str.ignore_case_violated`, `Types.Str.ignore_case_never_folds_violated`.
* **C17** (Setting one bit of a bit vector changes that bit only). False of the code: clearing a bit in a zero byte never returns. All other writes are proved. Theorems: `Types.Bits.bit_vector_clear_never_returns_violated`.
* **C18** (Concurrent bit sets are not lost). False of the code: a write can be lost under an interleaving. Proved when the writers touch different bytes. Theorems: `Types.Bits.concurrent_set_lost_violated`.
* **C19** (Vector headers store sizes faithfully and compiled code reads the same size). Sizes of 2^30 and more wrap; the capacity is multiplied by the element size. Theorems: `Types.Vec.vector_size_wraps_violated`, `Types.Vec.vector_capacity_scaled_violated`.
* **C20** (Slicing stays inside the vector). False when position plus length overflows 32 bits or a resize exceeds 32 bits. Theorems: `Types.Vec.slice_overflow_violated`, `Types.Vec.resize_wraps_violated`.
* **C21** (Jagged vectors return the rows that were added). False of the code: every row is the one after it; the exact shift is proved. Fixed-width rows are right. Theorems: `Types.Vec.jagged_first_row_violated`.
* **C22** (Dynamic object fields do not overlap). False for long double fields, which reserve 8 of 16 bytes. Proved for all other field types, headers below 2^31 bytes and at most 2^27 fields. Theorems: `Types.Dyn.dyn_object_long_double_violated`, `Types.Dyn.dyn_object_long_double_outside_violated`, `Types.Dyn.dyn_object_header_violated`.
* **C23** (Parameter trees resolve names through ancestors). Proved for every chain that ends; SetParent accepts cycles, on which a lookup never returns. Contains agrees with Get when members are only put into objects. Theorems: `Types.Par.params_contains_violated`, `Types.Par.params_cycle_violated`.
* **C25** (Type descriptors are totally ordered). A total order on descriptors without array lengths and with second type identifiers below 1024; false in general. Theorems: `Types.DT.dtype_eq_arrays_violated`, `Types.DT.dtype_lt_antisymm_violated`, `Types.DT.dtype_lt_cycle_violated`.
* **C26** (Pointer and vector type constructors invert). False for pointers to nested collections; proved for the rest. Theorems: `Types.DT.ptr_roundtrip_violated`, `Types.DT.ptr_roundtrip_nested_violated`.
* **C27** (Value conversion between primitive types follows C++ conversion). False for negative 8-bit signed sources (missing break). Floating point types are not modelled. Theorems: `Types.Conv.convert_i8_violated`.
* **C28** (Tuple arity is reported correctly). Pairs and triples report the wrong size. Theorems: `Types.DT.tuple_size_pair_violated`.
* **C31** (Source text that is not entirely a program is rejected). Proved for the entry point for several functions; the entry points for one function and for an expression ignore what follows. Theorems: `Ast.expression_trailing_violated`, `Ast.function_trailing_violated`.
* **C32** (Error messages name the right line). False: every line break before the position is forgotten, so the reported line drifts. The reported line is never too small. Theorems: `Ast.Lines.line_drift_violated`.
* **C35** (Integer literals denote themselves). Proved up to 2^53; literals are read as binary64 and rounded above, and the largest ones are converted out of range. Theorems: `Ast.Literal.literal_value_violated`, `Ast.Literal.literal_largest_violated`.
* **C36** (Compiled control flow follows the source program). False when an elif or else body ends in a nested statement or vector expression, and when code follows a jump. Simulation in both directions proved for all other bodies. Theorems: `Gen.control_flow_violated`.
* **C37** (Variables are independent). False for var b = a (the new name shares the slot). Proved for programs whose definitions have other right-hand sides; no arrays, member accesses or nested assignments. Theorems: `Gen.Scalar.assignment_changes_other_violated`.
* **C38** (Unselected operands are not evaluated). False when a skipped operand calls or traps. Proved when the conditional operands neither call nor trap. Theorems: `Gen.Scalar.conditional_operand_call_violated`, `Gen.Scalar.conditional_operand_trap_violated`.
* **C39** (Vector expressions are element-wise). False when the unused lanes of the last block trap, e.g. x / (y - 1). Proved for all sizes when they do not; operands of operators must have one type (constants are converted), calls of vector functions stand in first operands. The lane-wise meaning of operators is a parameter. Theorems: `Gen.Vec.padding_trap_violated`.
* **C41** (Scalar subexpressions keep their value inside vector expressions). False: the leaves of a scalar subexpression are converted before it is computed. Proved for operands of one type. Theorems: `Gen.Vec.scalar_subexpression_violated`, `Comp.VecPipe.negative_constant_violated`.
* **C42** (Argument passing agrees with the platform calling convention). Proved for free functions and all argument lists over the modelled classes. False for member functions, which are declared without the byval attribute. Theorems: `Func.CallConv.member_args_violated`, `Func.CallConv.member_by_value_arg_violated`.
* **C43** (The implicit context argument is inserted at its place). Proved for registered functions. False for functions defined in the same source, whose context position is never computed. Theorems: `Func.script_function_context_violated`.
* **C45** (Sum does not depend on the SIMD width). The kernel equals the modular sum for every lane count; for signed types the scalar tail is undefined behaviour on overflow (violated witness) and correct without overflow. Floating point sums are not modelled. Theorems: `Simd.sum_overflow_violated`.
* **C46** (Minimum and maximum do not depend on the SIMD width). True when some element is at least the lowest finite value (for min: at most the largest). False for a vector of only -infinity (+infinity). NaN is outside the linear order of the model. Theorems: `Simd.max_below_lowest_violated`, `Simd.min_above_max_violated`.
* **C48** (gather is index-wise and safe). False of the code for indices outside the vector in full blocks (unchecked). Proved for in-range indices in full blocks, and for the scalar and bit branches for all indices. Theorems: `Simd.gather_out_of_bounds_violated`.
* **C49** (filter keeps exactly the selected elements in order). Correct for every lane count when the mask is long enough; the mask size is never checked and the last block may read past an unpadded mask. Theorems: `Simd.filter_short_mask_violated`, `Simd.filter_tail_overread_violated`.
* **C50** (Byte match masks mark exactly the matching positions). False when zero matches and a partial block remains. Theorems: `Simd.match_padding_violated`.
* **C51** (average is defined for every non-empty vector). False for narrow types when the size cast to the element type is zero or negative. Theorems: `Simd.avg_zero_division_violated`, `Simd.avg_sign_violated`.
* **C52** (Counting set bits is exact). True below 32 byte lanes, or when no 8-bit lane counter overflows; false with 32 byte lanes and 256 set bits. Theorems: `Simd.count_true_violated`.
* **C53** (Bitwise operations on bit vectors are element-wise and keep padding clear). All elements are right for every operation; the padding bits after negation are set. Theorems: `Simd.not_padding_violated`.
* **C54** (find_char returns the first position of a character). Proved for strings up to 2^31 bytes; beyond, the position is truncated to int. Theorems: `Simd.find_char_long_violated`.
* **C55** (find_string returns the first occurrence of a substring). False of the code: candidates are compared at the block start. Proved for needles of length 1 and 2 and for haystacks shorter than a block. Theorems: `Simd.find_string_missed_violated`, `Simd.find_string_false_hit_violated`, `Simd.find_string_empty_violated`.
* **C58** (Table filter and split keep rows aligned and ordered). Proved for masks at least as long as the table; the length of the mask is never checked and a shorter one is read out of bounds. Theorems: `Tbl.table_filter_short_mask_violated`.
* **C59** (Head and Tail return the first and last k rows). Tail(0) returns the whole table. Theorems: `Tbl.tail_zero_violated`.
* **C62** (Distinct by several columns keeps one row per combination). False for several columns: the per-column masks are combined with AND, so combinations are lost. Theorems: `Tbl.distinct_columns_violated`.
* **C63** (Concatenation appends rows). Concat is proved. Merge is right when the key column has not been read before; otherwise it reads outside the column. Theorems: `Tbl.Col.merge_loaded_column_violated`.
* **C64** (Adding rows is all or nothing). False of the code: a failure in a later row group leaves the earlier ones grown. Proved for single-group tables and for histories of successful calls. Theorems: `Tbl.add_rows_failure_violated`, `Tbl.insert_row_failure_violated`.
* **C69** (Nested parallel loops on one pool complete). False of the code when at least as many tasks nest a Run as there are threads: for every pool size a deadlock is reachable. Completion is proved when fewer tasks nest than there are threads; a task makes at most one nested Run in the model. Theorems: `Pool.Nested.nested_run_deadlock_violated`.
* **C72** (Distinct C++ types have distinct descriptors). Different types have different descriptors as soon as different classes have different identifiers (get_dtype_injective), which is so for up to 16319 classes whose identifiers come from one translation unit, in every schedule of threads (descriptors_partial). Classes of different translation units can share a descriptor (descriptors_violated). Arrays of arrays are outside the grammar: get_dtype_nested_array_violated shows they collide. Theorems: `Types.DT.get_dtype_nested_array_violated`, `Types.Descriptors.descriptors_violated`.
* **C73** (Element types of collection descriptors are the element types). False for maps to fundamental types. Theorems: `Types.DT.map_value_type_violated`.
* **C74** (Columns show the table's current rows). False of the code: Get after a row change returns the emptied column, and loading after Set overwrites the vector given by the user. Theorems: `Tbl.Col.get_column_stale_violated`, `Tbl.Col.set_column_overwritten_violated`.
* **C75** (OrderBy and Topk return rows in key order). Proved for key vectors; ordering by the name of a column not read yet throws. Theorems: `Tbl.order_by_unloaded_column_violated`.
* **C76** (Ordering a table leaves it unchanged). False of the code. Theorems: `Tbl.Col.order_by_changes_source_violated`.
* **C78** (The mask of Filter tells which rows satisfy the predicate). Proved without a pool; with a pool bits are lost. Theorems: `Tbl.filter_mask_pool_violated`.
* **C79** (Rows inside a group keep the table's order). True for a key vector, false for key columns. Theorems: `Tbl.group_by_columns_order_violated`.
* **C80** (A cached expression is compiled once). False of the code for every signature after the first. Theorems: `Exec.other_signature_recompiled_violated`.
* **C81** (Evaluation may be nested). False of the code on cache hits: the mutex is held while the compiled code runs. Theorems: `Exec.nested_evaluation_violated`.
* **C82** (eval_function runs a function of its own source). False when a source is used with both functions. Theorems: `Exec.eval_function_runs_expression_violated`.
* **C84** (The conditional operator needs no spaces). False without a space after a name: the colon is taken into the name. Theorems: `Ast.colon_in_name_violated`.
* **C86** (No part of an accepted program is dropped). False for break and continue without a semicolon. Theorems: `Ast.break_dropped_violated`.
* **C87** (An index literal denotes its value). Proved for plain numerals below 2^32. Theorems: `Ast.Literal.index_value_violated`.
* **C88** (A built-in function called with a wrong number of arguments is refused). False: only the total number of arguments is checked. Theorems: `Ast.Rpn.wrong_arity_violated`.
* **C89** (A return statement is checked against its own function). False for functions after the first, whose returns are compared with the first function's type. Theorems: `Ast.Validate.returns_first_type_violated`.
* **C90** (A suffixed integer literal has the value written or is refused). False out of range: the value wraps. Theorems: `Ast.Literal.literal_suffix_violated`.
* **C91** (A literal with a decimal point is a floating point number). False for every literal with a zero fraction. Theorems: `Ast.Literal.literal_point_violated`.
* **C92** (A function with a return type returns a value it computed). False when control reaches the end of the body or a return without value. Theorems: `Gen.returns_a_value_violated`.
* **C93** (Operands are evaluated in written order). False with assignments inside expressions. Proved for all others without arrays and member accesses; effects before a trap not observed. Theorems: `Gen.Scalar.operand_order_violated`.
* **C95** (Comparisons of integers are right). False exactly for the pairs of a signed type and an unsigned type at least as wide. Theorems: `Gen.IntOps.compare_mixed_violated`.
* **C96** (Integer arithmetic is exact or wraps). Proved for operands of one type; for mixed types when the operands fit into the common type. Theorems: `Gen.IntOps.arith_mixed_violated`.
* **C97** (Negation and absolute value). False for abs of unsigned values above half the range. Theorems: `Gen.IntOps.abs_unsigned_violated`.
* **C98** (Vector operators take their number of operands). False: no check of the number of operands. Theorems: `Gen.Vec.operand_count_violated`.
* **C99** (A call of a vector function is an operand like any other). False for calls in right operands. elementwise_partial covers calls in first operands. Theorems: `Gen.Vec.function_operand_violated`.
* **C100** (Slices of bit vectors can be used like bit vectors). False for slices not beginning at a multiple of 64. Theorems: `Gen.VecBits.bit_slice_violated`.
* **C101** (A new vector has room for its elements). False from 2^32 bytes on. Theorems: `Gen.VecBits.new_vector_room_violated`.
* **C102** (A compiler object can be used again and again). False: the cursor of the parse context survives. Proved for scripts, and for functions and expressions when no script of several functions was compiled before; a compiler never compiles something else because of its history. Theorems: `Session.history_violated`.
* **C103** (Exactly the well-scoped scripts are compiled). False for functions named like an operator (max, filter, add, ...). Types are left out: an operator is either defined for its operands or not. Theorems: `Session.well_scoped_violated`.
* **C104** (A call runs the function it was checked against). False when a script defines a function with the name of a registered function it uses. Theorems: `Session.call_target_violated`.
* **C105** (Chains of accesses). False: a bracket access after a field access passes the checker and is refused by the code generator. Theorems: `Access.access_chain_violated`.
* **C106** (Searching std::vector objects from scripts). False for vectors of objects (addresses are compared) and for places from 2^31 on. Theorems: `Stl.vector_find_object_violated`, `Stl.vector_find_large_violated`.
* **C107** (Reading and writing std::vector objects from scripts). False only for add on a null vector, which is dereferenced. Theorems: `Stl.vector_add_null_violated`.
* **C108** (Maps and sets from scripts). False for get of a missing key in a map to objects. Theorems: `Stl.map_get_missing_violated`.
* **C109** (Splitting a string at a string). Proved for separators of one or two bytes and for strings shorter than a block. False for longer separators. Theorems: `Simd.split_by_string_violated`, `Simd.split_by_empty_violated`.
* **C111** (One arena shared by several threads). Disjointness and completeness hold for every interleaving; Reset and MemoryUsage race with allocations of other threads. Theorems: `Memory.Threads.reset_race_violated`.
* **C112** (Comparing floating point numbers). False for != with a NaN, which is false. Theorems: `Gen.Flt.float_ne_nan_violated`.
* **C113** (Comparing an integer with a floating point number). Exact for integers within the significand; comparisons are never reversed for larger ones, but different numbers may compare equal. Theorems: `Gen.Flt.mixed_compare_violated`.
* **C114** (Converting a floating point number to an integer). Undefined exactly for NaN, infinities and values out of range. Theorems: `Gen.Flt.float_to_int_violated`.
* **C116** (Powers of integers). Exact up to 53 bits; undefined out of range, wrong from 2^53 on. Theorems: `Gen.MathFns.int_pow_violated`.
* **C117** (Rounding functions on scalars and vectors). False for round half way between integers: scalars round away from zero, vectors to even. Theorems: `Gen.MathFns.round_violated`.
* **C118** (clamp and abs_diff on scalars and vectors). False with bounds in the wrong order and for differences that do not fit. Theorems: `Gen.MathFns.clamp_violated`, `Gen.MathFns.abs_diff_violated`.
* **C120** (Access to JSON values). Undefined exactly if a member or element is missing. Theorems: `Func.Json.json_access_violated`.
* **C121** (Reading JSON numbers as integers). False for numbers that do not fit: cut or undefined. Theorems: `Func.Json.json_extract_violated`.
* **C122** (Adding columns to a schema). False for failing calls: columns added before the failure stay and point to a freed row schema. Theorems: `Tbl.Schema.add_columns_failure_violated`.
* **C124** (A column shows the rows of its own set). False when a row type occurs twice: the first set of rows is used for both. Theorems: `Tbl.Schema.row_set_violated`.
* **C125** (Extending a schema that is in use). False when the vector of columns grows; exact condition proved. Theorems: `Tbl.Schema.extend_schema_violated`.
* **C126** (One schema for a name). False for nested requests (deadlock), kinds that differ and unknown tables. Theorems: `Schemas.registry_nested_violated`, `Schemas.registry_kind_violated`, `Schemas.registry_get_violated`.
* **C127** (Cells of struct columns). False for StringView members, std::vector<bool>, strings returned by value, vectors and arrays returned by methods, pointers to strings: accepted, but shown as empty. Theorems: `Tbl.Cells.struct_cell_violated`.
* **C128** (Cells of protobuf columns). Single fields are exact. False for repeated fields: freed memory is read. Theorems: `Tbl.Cells.pb_repeated_violated`.
* **C129** (Cells of flatbuffers columns). False for fields left out: numbers are shown as 0 instead of the default, strings and vectors dereference a null pointer. Theorems: `Tbl.Cells.fb_cell_violated`.
* **C130** (Names of types tell types apart). Holds for types with an identifier, collections of them, maps to built-in types, and pointers to those. False for pointers and collections as elements, arrays, tuples and maps to classes. Theorems: `Types.Names.pointer_elements_same_name_violated`, `Types.Names.array_lengths_same_name_violated`, `Types.Names.nested_types_have_no_name_violated`.
* **C131** (Members registered for a type). False for types with pointers or collections as elements: they share one set of members. Theorems: `Comp.Members.members_of_nested_types_violated`.
* **C132** (Member functions of several types in one script). Never another function; but a script in which two names coincide can not be linked. Theorems: `Comp.Members.member_calls_violated`, `Comp.Members.member_calls_underscore_violated`.
* **C133** (Types registered before a script is compiled are known to it). Exact for every history. False for registrations after the last compiler was created, and for names given to primitive types. Theorems: `Ast.Symbols.type_registered_later_unknown_violated`, `Ast.Symbols.primitive_alias_unknown_violated`.
* **C134** (Compilers on several threads share the table of type names). No two writers; no race if threads only compile or only create compilers; a race otherwise. Theorems: `Ast.SymbolsRace.symbols_race_violated`.
* **C137** (A string literal is the string it stands for). Holds for literals without backslash. A backslash stays in the string; no literal begins with a quote. Theorems: `Comp.StrLit.escaped_literal_violated`, `Comp.StrLit.quote_violated`.
* **C138** (A variable that is read has been given a value). Holds if variables are defined with a value and not used after the block of their definition. Otherwise a variable defined in a branch can be read after it (the check of the generated code that would find this is compiled only into debug builds). Theorems: `Comp.Vars.unwritten_variable_violated`.
* **C139** (A variable assigned on every path has a place). False for a variable that gets its first value in a branch: the place is made there only. Theorems: `Comp.Vars.place_in_branch_violated`.
* **C140** (The stack used by a call does not depend on the number of iterations). False for loops with definitions, string literals or arrays in them: every iteration takes new stack until the function returns. Theorems: `Comp.Vars.stack_in_loop_violated`.
* **C141** (What validation accepts is compiled). Holds for statements that keep to the types of their variables. Accepted and then refused: x = 2.5 and x += 2.5 for an integer x, a std::string passed for a view (its conversion is not declared), a variable used in its own definition. Theorems: `Comp.Accept.assignment_of_other_type_violated`, `Comp.Accept.update_of_larger_type_violated`, `Comp.Accept.string_argument_violated`, `Comp.Accept.unassigned_variable_violated`.
* **C142** (Validation predicts the types of the compiled code). Exact unless c ? t : f has a t of a larger type of number: predicted is the type of f, computed is the larger. Theorems: `Comp.Accept.select_type_violated`.
* **C145** (A number may be the first alternative of a selection). False: x > 0 ? 1 : x with 64-bit elements. Proved in parentheses, inside larger expressions, and for numbers of the elements' type. Theorems: `Comp.VecPipe.number_first_violated`.
* **C147** (The dot product reads only its vectors). False for vectors with fewer elements than lanes in memory that ends with them: a whole block is read. Proved otherwise. Theorems: `Simd.Distance.dot_violated`.
* **C151** (A function object tells whether it came from the cache). False: moving does not carry the flag, in a new object it has no value. Theorems: `Comp.Holder.from_cache_violated`.
* **C154** (A vector variable made from another vector is a copy). False for auto y = x: both names stand for one vector. Proved for assignments to variables that have a vector. Theorems: `Comp.VecFn.vector_copy_violated`.
* **C155** (Assignments of vectors that validation accepts can be compiled). False for numbers assigned to vectors and vectors to numbers. Proved for the functions of C153. Theorems: `Comp.VecFn.accepted_assignment_violated`.
* **C157** (Sorting a table does not change the columns of the table that was sorted). False if the key is a single column: it is sorted in place. Proved for functions with computed keys. Theorems: `Comp.TableFn.sorted_column_violated`.
* **C161** (Elements and fields of protobuf messages are given or an error is reported). False for indices outside, missing keys of maps to messages, and string setters of null messages. Theorems: `Pb.repeated_get_range_violated`, `Pb.map_get_message_violated`, `Pb.set_string_null_violated`.
* **C166** (A function over the fields of structs does what its statements say). Proved for fields that are numbers, strings or embedded structs. False of boolean fields: a function that returns one is well typed and refused (boolean_field_violated). Theorems: `Comp.FieldsFn.boolean_field_violated`.
* **C167** (A vector made from a std::vector shows its elements). Proved for histories in which no element of a vector that must not be written is set; there the code writes through the null pointer instead of reporting an error (set_readonly_violated, undefined_only_readonly). Vectors of fewer than 2^30 elements. Vectors of strings and of pointers are not modelled. Theorems: `Ctx.NewVec.set_readonly_violated`.
* **C168** (A string made in an arena lives in that arena). Proved for histories in which strings are assigned and moved inside one arena, and for histories without resets. False of assignments between arenas: the allocator goes along, and the text is lost when the other arena is reset. Theorems: `Memory.ArenaStr.assigned_string_violated`, `Memory.ArenaStr.moved_string_violated`, `Memory.ArenaStr.later_text_violated`.
* **C169** (Sorting starts from the numbers of the rows on every thread). Proved for all orders of steps after one call has ended, for the first call alone, and for all histories of one table. False of first calls on several threads at once: one can get the numbers 0, 0, … (first_calls_violated), or both resize the shared vector (first_calls_race_violated). Theorems: `Tbl.Indices.first_calls_violated`, `Tbl.Indices.first_calls_race_violated`.
* **C172** (Tables made from tables hold their own rows, found where they belong). Proved for histories in which no rows are added to a table that was returned by Head or Tail of a table with no more rows than asked for (or to that table): the result is the table itself, so it changes with it (head_of_all_rows_violated). Tail(0) is C59, calls of AddRows that fail half way C64. Columns are C74. Theorems: `Tbl.History.head_of_all_rows_violated`.
* **C174** (Tables made from tables outlive them). Proved for programs that do not destroy a table that is shared as in C172. False of Head(k) and Tail(k) of a table with no more rows than asked for: the result is the table itself and dies with it (head_after_drop_violated). Theorems: `Tbl.Lifetime.head_after_drop_violated`.
* **C175** (A destructor run by the context can read the memory the context gave out). Proved for destructors that read pieces of at most 4080 bytes. False of every larger piece: Reset gives its block back to the system before it runs the destructors (large_piece_violated). Destructors that allocate from the context are not modelled. Theorems: `Ctx.ResetOrder.large_piece_violated`.
* **C176** (Grouping by columns goes by the values in them). Proved for at least one column, of integers, strings and finite floating point numbers above -1 and below 2^64. False of a boolean column: every row gets its own table (boolean_column_violated). Undefined for a floating point number of at most -1, NaN or infinity (negative_number_violated) and for an empty list of columns (no_columns_violated). Theorems: `Tbl.KeyBytes.boolean_column_violated`, `Tbl.KeyBytes.negative_number_violated`, `Tbl.KeyBytes.no_columns_violated`.
* **C177** (Rows are taken out of tables at the types they were put in with). The types are right in every history (taken_out_at_type). That calls succeed exactly with the right types and nothing is read past the end is proved as long as no AddRows or InsertRow is refused halfway (lists of different lengths or types in another order); after such a call Foreach is undefined (refused_halfway_violated). One row schema for each C++ type is assumed. Theorems: `Tbl.Typed.refused_halfway_violated`.
* **C178** (Random vectors follow their seed). Proved for the seed of the first request on a context that is not reset afterwards. Later seeds are ignored (later_seed_violated), a repeated request continues the sequence (same_seed_again_violated), and a request after a reset uses a destroyed generator (after_reset_violated). The generator itself is library code and a parameter. Theorems: `Ctx.Random.later_seed_violated`, `Ctx.Random.same_seed_again_violated`, `Ctx.Random.after_reset_violated`.
* **C179** (Objects made in an arena release what they own elsewhere). Proved for all types in which standard containers (with the standard allocator) have elements that need destructors and classes with disabled destructors are neither in them nor in maps. A standard container of elements without destructors is taken for one of the arena, so its memory is never freed, on libraries that answer through the specialised trait (std_vector_violated); disabled destructors in maps are run (disabled_in_map_violated). Erasing elements is not modelled. Theorems: `Memory.Destroy.std_vector_violated`, `Memory.Destroy.disabled_in_map_violated`.
* **C180** (Multiply-add functions of scalars and vectors). Proved where the product is a number of the format, of fma with fused instructions and of the others without; the error bound holds always. fms (and likewise fnma, fnms) of scalars is rounded twice (scalar_fms_violated), fma of vectors is on processors without fused instructions (vector_fma_violated). Infinities, NaN and the sign of zero are not modelled. Theorems: `Gen.MulAdd.scalar_fms_violated`, `Gen.MulAdd.vector_fma_violated`.
* **C181** (Numbers of C++ types). Proved for TypeID::Get and Context::GetTypeId (type_ids) and for get_dtype when all numbers come from one translation unit. False of get_dtype otherwise: two classes from two units get the same number (two_units_violated), because nextTypeId in dtype.h is a static function of a header. Theorems: `Types.TypeIds.two_units_violated`, `Types.Descriptors.descriptors_violated`.
* **C182** (A message logged once in n times). Proved for executions that do not overlap, from the start (every_nth_partial) and after any history of overlapping ones (recovers_partial). Overlapping executions lose messages, even the first (lost_violated), because the counter is read again after it was changed. Theorems: `Log.EveryN.lost_violated`.
* **C183** (One thread pool for the program). Proved when only get is called and when init has returned before. An init at the same time as a get hands out two pools (init_at_the_same_time_violated), a later one has no effect (init_afterwards_violated), and with a limit of zero the pool has 8 threads (no_limit_violated). What a pool does with its work is C67 to C69. Theorems: `Pool.Global.init_at_the_same_time_violated`, `Pool.Global.init_afterwards_violated`, `Pool.Global.no_limit_violated`.
* **C184** (The logger messages go to). Proved when the logger is set while no thread logs, and for loggers the user keeps. A logger replaced while a thread logs is used after its destruction (destroyed_violated); a message is lost when none is set between the two looks at the pointer (lost_violated). Levels are not modelled. Theorems: `Log.Logger.destroyed_violated`, `Log.Logger.lost_violated`.

## Axioms of each theorem

### Classical.choice, Quot.sound, propext

`Lru.lru_refines_recency_list`, `Lru.lru_no_undefined_behaviour`, `Lru.lru_size_le_capacity`, `Lru.lru_recent_key_survives`, `Exec.eval_expression_value_partial`, `Exec.EvalText.swapped_names_violated`, `Exec.eval_function_first_call_violated`, `Exec.eval_calls_alive_partial`, `Memory.align_to_rounds_up`, `Memory.align_ceil_rounds_up`, `Memory.align_to_fixpoint`, `Memory.valid_align_value_iff`, `Memory.arena_element_size_rounds_up`, `Memory.arena_ranges_disjoint`, `Memory.arena_ranges_aligned`, `Memory.arena_ranges_inside`, `Memory.arena_no_undefined_behaviour`, `Memory.arena_bytes_used_exact`, `Memory.arena_limit_respected`, `Memory.arena_failure_reasons`, `Memory.arena_reset_reuses_memory`, `Memory.LevelDb.leveldb_ranges_disjoint`, `Memory.LevelDb.leveldb_ranges_inside`, `Memory.LevelDb.leveldb_aligned`, `Memory.LevelDb.leveldb_usage`, `Ctx.CleanupList.cleanup_at_most_once`, `Ctx.CleanupList.cleanup_drain_returns`, `Ctx.Context.context_no_dangling_partial`, `Types.Str.string_view_eq_iff`, `Types.Str.string_view_compare_lex`, `Types.Str.string_ops_lex`, `Types.Bits.bit_vector_set_partial`, `Types.Bits.bit_vector_set_returns_iff`, `Types.Bits.bit_vector_clear_never_returns_violated`, `Types.Bits.bits_set_frame`, `Types.Bits.concurrent_set_partial`, `Types.Vec.vector_header_partial`, `Types.Vec.header_updates`, `Types.Vec.vector_size_wraps_violated`, `Types.Vec.vector_capacity_scaled_violated`, `Types.Vec.fixed_rows_returned`, `Types.Dyn.dyn_object_layout_partial`, `Types.Dyn.dyn_object_refines_partial`, `Types.Dyn.dyn_object_set_status`, `Types.Dyn.dyn_object_long_double_violated`, `Types.Par.params_index`, `Types.DT.control_word_roundtrip`, `Types.DT.control_word_eq_iff`, `Types.DT.control_word_update`, `Types.DT.dtype_order_partial`, `Types.DT.dtype_primitive_order`, `Types.DT.dtype_eq_arrays_violated`, `Types.DT.ptr_roundtrip_violated`, `Types.DT.ptr_roundtrip_nested_violated`, `Types.Conv.convert_partial`, `Types.Conv.convert_i8_violated`, `Ast.lex_covers`, `Ast.lex_slices`, `Ast.lex_ordered`, `Ast.parse_print`, `Ast.parse_tree`, `Ast.parse_sound`, `Ast.parse_functions_print`, `Ast.parse_function_print`, `Ast.functions_consume_all`, `Ast.expression_prefix_partial`, `Ast.expression_trailing_violated`, `Ast.function_trailing_violated`, `Ast.Lines.line_not_before_partial`, `Ast.Literal.literal_value_violated`, `Ast.Literal.literal_largest_violated`, `Gen.blocks_well_formed_partial`, `Gen.control_flow_partial`, `Gen.Scalar.assignments_do_what_they_say_partial`, `Gen.Scalar.other_variables_unchanged_partial`, `Gen.Vec.elementwise_partial`, `Gen.Vec.elementwise_whole_blocks`, `Gen.Vec.vector_memory_safe`, `Gen.Vec.different_sizes_reported`, `Gen.VecBits.bit_access_inside`, `Gen.VecBits.bool_access_inside`, `Gen.VecBits.empty_bits`, `Comp.VecPipe.negative_constant_violated`, `Func.CallConv.args_follow_sysv`, `Func.CallConv.by_value_iff_memory`, `Func.CallConv.member_by_value_arg_violated`, `Func.context_inserted`, `Func.full_call_unchanged`, `Func.count_mismatch_error`, `Func.script_function_context_violated`, `Gen.IntOps.cast_preserves`, `Gen.IntOps.cast_wraps`, `Simd.sum_value_partial`, `Simd.sum_lane_independent_partial`, `Simd.sum_signed_no_overflow_partial`, `Simd.max_partial`, `Simd.min_partial`, `Simd.max_below_lowest_violated`, `Simd.min_above_max_violated`, `Simd.find_first`, `Simd.find_first_string`, `Simd.gather_scalar`, `Simd.gather_simd_partial`, `Simd.gather_out_of_bounds_violated`, `Simd.gather_bits`, `Simd.filter_selected_partial`, `Simd.filter_string_selected`, `Simd.filter_bits_selected`, `Simd.match_mask_partial`, `Simd.avg_partial`, `Simd.avg_zero_division_violated`, `Simd.avg_sign_violated`, `Simd.count_true_partial`, `Simd.count_true_small_blocks_partial`, `Simd.not_elementwise_partial`, `Simd.binary_elementwise`, `Simd.not_padding_violated`, `Simd.find_char_first`, `Simd.find_char_long_violated`, `Simd.find_string_one_partial`, `Simd.find_string_two_partial`, `Simd.find_string_short_partial`, `Simd.split_by_char_runs`, `Tbl.table_filter`, `Tbl.table_split`, `Tbl.group_by_vector`, `Tbl.group_by_columns`, `Tbl.dedup_mask`, `Tbl.distinct_rows_partial`, `Tbl.distinct_single_partial`, `Tbl.distinct_unique`, `Tbl.distinct_columns_violated`, `Tbl.merge_rows_partial`, `Tbl.add_rows_partial`, `Tbl.add_rows_succeeds_iff`, `Tbl.add_rows_single_partial`, `Tbl.insert_row_partial`, `Tbl.append_row_last`, `Tbl.rows_aligned_partial`, `Pool.run_calls_each_index_once`, `Pool.chunk_calls_increasing`, `Pool.Barrier.run_returns_after_all_calls`, `Pool.Barrier.run_progress`, `Pool.Barrier.run_can_return`, `Pool.Nested.nested_run_deadlock_violated`, `Pool.Nested.nested_run_progress_partial`, `Pool.Nested.nested_run_bounded`, `Pool.Nested.nested_run_completes_partial`, `Lru.get_or_insert_stable`, `Simd.iota_correct`, `Types.DT.get_dtype_injective`, `Types.Descriptors.descriptors_partial`, `Types.DT.get_dtype_elem_partial`, `Types.DT.map_value_type_violated`, `Tbl.order_by_rows`, `Tbl.topk_rows`, `Tbl.filter_mask_partial`, `Tbl.group_by_vector`, `Tbl.group_by_columns_order_violated`, `Ast.lex_texts`, `Ast.lex_write`, `Ast.colon_in_name_violated`, `Ast.conditional_spaced_partial`, `Ast.parse_ends`, `Ast.break_dropped_violated`, `Ast.function_body_kept_partial`, `Ast.Literal.index_value_violated`, `Ast.Literal.literal_suffix_violated`, `Gen.returns_a_value_partial`, `Gen.Scalar.well_typed_program_compiles`, `Gen.Scalar.define_needs_assignment`, `Gen.IntOps.compare_mixed_partial`, `Gen.IntOps.compare_safe_types`, `Gen.IntOps.arith_exact`, `Gen.IntOps.division_exact`, `Gen.IntOps.division_undefined`, `Gen.IntOps.arith_mixed_exact`, `Gen.IntOps.neg_exact`, `Gen.IntOps.abs_partial`, `Gen.IntOps.abs_unsigned_violated`, `Gen.Vec.operand_count_partial`, `Gen.Vec.elementwise_partial`, `Gen.VecBits.bit_slice_partial`, `Gen.VecBits.new_vector_room_partial`, `Session.history_only_refuses`, `Session.well_scoped_partial`, `Session.checked_as_intended_partial`, `Session.well_scoped_violated`, `Session.call_target_partial`, `Access.access_chain_right`, `Access.access_chain_partial`, `Access.access_chain_ill_typed`, `Stl.vector_find_partial`, `Stl.vector_set`, `Simd.split_by_string_partial`, `StrCmp.compare_strings_lanes`, `Memory.Threads.thread_blocks_disjoint`, `Memory.Threads.thread_no_race`, `Memory.Threads.thread_vector_exclusive`, `Memory.Threads.thread_arenas_complete`, `Memory.Threads.reset_quiet`, `Gen.Flt.float_compare_partial`, `Gen.Flt.mixed_compare_partial`, `Gen.Flt.mixed_compare_order_partial`, `Gen.Flt.mixed_compare_violated`, `Gen.Flt.float_to_int_partial`, `Gen.Flt.float_to_int_violated`, `Gen.Flt.int_float_int`, `Gen.Flt.max_float`, `Gen.Flt.min_float`, `Gen.MathFns.int_pow_partial`, `Gen.MathFns.int_pow_violated`, `Gen.MathFns.scalar_rounding_spec`, `Gen.MathFns.round_violated`, `Gen.MathFns.abs_diff_partial`, `Gen.MathFns.abs_diff_violated`, `Simd.Transform.unary_transform`, `Simd.Transform.binary_transform`, `Simd.Transform.ternary_transform`, `Func.Json.json_access_partial`, `Func.Json.json_access_violated`, `Func.Json.json_extract_partial`, `Func.Json.json_extract_violated`, `Tbl.Schema.add_columns_partial`, `Tbl.Schema.column_by_name`, `Tbl.Schema.row_set_partial`, `Tbl.Schema.extend_schema_partial`, `Tbl.Schema.extend_schema_violated`, `Schemas.registry_partial`, `Schemas.registry_nested_violated`, `Schemas.registry_kind_violated`, `Schemas.registry_get_violated`, `Tbl.Cells.struct_cell_partial`, `Tbl.Cells.struct_cell_other`, `Tbl.Cells.struct_cell_violated`, `Types.Names.type_string_partial`, `Types.Names.type_names_determine_types_partial`, `Types.Names.pointer_elements_same_name_violated`, `Types.Names.array_lengths_same_name_violated`, `Types.Names.nested_types_have_no_name_violated`, `Comp.Members.members_of_a_type_partial`, `Comp.Members.registration_answer_partial`, `Comp.Members.members_of_nested_types_violated`, `Comp.Members.member_calls_partial`, `Comp.Members.never_another_function`, `Comp.Members.member_calls_violated`, `Comp.Members.member_calls_underscore_violated`, `Ast.Symbols.type_names_known_partial`, `Ast.Symbols.registered_before_compiler_known`, `Ast.Symbols.type_registered_later_unknown_violated`, `Ast.Symbols.primitive_alias_unknown_violated`, `Ast.SymbolsRace.one_writer`, `Ast.SymbolsRace.no_race_partial`, `Comp.Pipeline.number_expression`, `Comp.Pipeline.condition_expression`, `Comp.Pipeline.number_exact`, `Comp.Pipeline.condition_exact`, `Comp.Pipeline.every_expression_has_text`, `Comp.Function.function_computes`, `Comp.Function.function_returns`, `Comp.Function.every_function_has_text`, `Comp.StrLit.literals_denote_partial`, `Comp.StrLit.literals_verbatim`, `Comp.StrLit.every_plain_string_has_literal`, `Comp.StrLit.escaped_literal_violated`, `Comp.StrLit.quote_violated`, `Comp.Vars.read_variables_written_partial`, `Comp.Vars.variable_places_exist_partial`, `Comp.Vars.stack_bounded_partial`, `Comp.Accept.accepted_script_compiles_partial`, `Comp.Script.script_computes`, `Comp.Script.script_result_unique`, `Comp.Script.returned_value_stays`, `Comp.Script.every_script_has_text`, `Comp.VecPipe.vector_expression`, `Comp.VecPipe.vector_condition`, `Comp.VecPipe.without_context_refused`, `Comp.VecPipe.every_vector_expression_has_text`, `Comp.VecPipe.number_first_violated`, `Comp.VecPipe.selection_partial`, `Comp.VecPipe.vector_expression`, `Simd.Distance.l2_distance`, `Simd.Distance.cosine_distance`, `Simd.Distance.dot_partial`, `Simd.Distance.dot_violated`, `Ast.Pool.destroyed_exactly_once`, `Ast.Pool.no_reuse_before_destruction`, `Ast.Pool.existing_objects_have_memory`, `Ast.Pool.reverse_order`, `Func.OpNames.names_apart`, `Func.OpNames.names_exist`, `Func.OpNames.cached_names`, `Comp.Holder.function_keeps_code`, `Comp.Holder.unneeded_code_freed`, `Comp.Holder.from_cache_violated`, `Comp.Holder.from_cache_partial`, `Comp.Real.real_expression`, `Comp.Real.every_real_expression_has_text`, `Comp.VecFn.vector_function`, `Comp.VecFn.without_context_refused`, `Comp.VecFn.every_vector_function_has_text`, `Comp.VecFn.vector_copy_violated`, `Comp.VecFn.vector_copy_partial`, `Comp.VecFn.vector_function`, `Comp.VecFn.accepted_assignment_violated`, `Comp.VecFn.accepted_function_partial`, `Comp.TableFn.table_function`, `Comp.TableFn.every_table_function_has_text`, `Comp.TableFn.sorted_column_violated`, `Comp.TableFn.sorted_column_partial`, `Comp.RealFn.real_function_computes`, `Comp.RealFn.real_function_returns`, `Comp.RealFn.real_call_deterministic`, `Comp.RealFn.every_real_function_has_text`, `Wrapped.method_called`, `Wrapped.one_place_no_clash`, `Wrapped.two_methods`, `Pb.map_contains`, `Comp.Words.words_expression`, `Comp.Words.every_words_expression_has_text`, `Comp.WordsFn.words_function_computes`, `Comp.WordsFn.words_function_returns`, `Comp.WordsFn.words_call_deterministic`, `Comp.WordsFn.every_words_function_has_text`, `Simd.Sort.sorts_in_place`, `Comp.VecWords.vector_with_literal`, `Comp.VecWords.vector_with_string`, `Comp.VecWords.vector_with_vector`, `Comp.VecWords.column_with_literal`, `Comp.VecWords.column_with_string`, `Comp.FieldsFn.fields_function_computes_partial`, `Comp.FieldsFn.fields_call_deterministic`, `Comp.FieldsFn.every_fields_function_has_text`, `Comp.FieldsFn.boolean_field_violated`, `Comp.FieldsFrame.other_contents_kept`, `Ctx.NewVec.vectors_show_elements_partial`, `Ctx.NewVec.undefined_only_readonly`, `Ctx.NewVec.calls_possible`, `Ctx.NewVec.other_memory_kept`, `Comp.DynFn.dyn_function_computes`, `Comp.DynFn.dyn_call_deterministic`, `Comp.DynFn.host_sets`, `Comp.DynFn.unknown_field_refused`, `Comp.DynFn.every_dyn_function_has_text`, `Comp.FieldsFrame.dyn_other_fields_kept`, `Exec.EvalText.evaluated_text`, `Exec.EvalText.evaluated_texts`, `Exec.EvalText.other_text_refused`, `Exec.EvalText.evaluated_twice`, `Tbl.History.tables_hold_rows_partial`, `Tbl.History.head_of_all_rows_violated`, `Types.ParamTree.reads_last_write`, `Types.ParamTree.value_stays`, `Tbl.Lifetime.tables_live_partial`, `Tbl.Lifetime.head_after_drop_violated`, `Ctx.ResetOrder.destructors_read_partial`, `Tbl.KeyBytes.grouped_by_values_partial`, `Tbl.KeyBytes.boolean_column_violated`, `Tbl.KeyBytes.negative_number_violated`, `Tbl.Typed.taken_out_at_type`, `Tbl.Typed.right_types_accepted_partial`, `Gen.MulAdd.agree_partial`, `Gen.MulAdd.accurate_partial`, `Gen.MulAdd.scalar_fms_violated`, `Gen.MulAdd.vector_fma_violated`, `Types.TypeIds.numbers_of_types_partial`, `Types.TypeIds.type_ids`, `Types.Descriptors.descriptors_partial`, `Log.EveryN.every_nth_partial`, `Log.EveryN.recovers_partial`, `Log.EveryN.counter_bounds`, `Log.Logger.set_between_partial`, `Comp.VecMistake.mistakes_refused`

### Quot.sound, propext

`Lru.lru_zero_capacity_violated`, `Exec.eval_expression_names_violated`, `Exec.eval_expression_error_hidden_violated`, `Func.registry_first_wins`, `Func.registry_result`, `Func.registry_stable`, `Func.load_ignores_signature_violated`, `Func.load_unknown_name_refused_partial`, `Memory.bits_byte_size_covers`, `Memory.align_to_overflow_violated`, `Memory.arena_failed_allocation_keeps_state`, `Memory.LevelDb.leveldb_aligned_overflow_violated`, `Ctx.CleanupList.cleanup_fifo`, `Ctx.CleanupList.cleanup_thread_order`, `Ctx.CleanupList.cleanup_drain_complete`, `Ctx.CleanupList.cleanup_no_use_after_free`, `Ctx.Context.context_destroys_once`, `Ctx.Context.context_getptr_dangling_violated`, `Types.Str.lexCmp_swap`, `Types.Str.lexCmp_eq_iff`, `Types.Str.string_compare_long_violated`, `Types.Str.ignore_case_partial`, `Types.Str.ignore_case_never_folds_violated`, `Types.Bits.bit_vector_set_range`, `Types.Bits.concurrent_set_lost_violated`, `Types.Vec.raw_size_eq_api`, `Types.Vec.slice_partial`, `Types.Vec.slice_bits_partial`, `Types.Vec.resize_partial`, `Types.Vec.slice_overflow_violated`, `Types.Vec.resize_wraps_violated`, `Types.Vec.jagged_get_shifted`, `Types.Vec.jagged_first_row_violated`, `Types.Vec.jagged_size`, `Types.Dyn.dyn_object_long_double_outside_violated`, `Types.Dyn.dyn_object_header_violated`, `Types.Par.params_get_nearest_partial`, `Types.Par.params_contains_partial`, `Types.Par.set_parent_known`, `Types.Par.set_parent_new`, `Types.Par.params_cycle_violated`, `Types.DT.type_constructors_partial`, `Types.Conv.convert_i8_domain`, `Types.DT.tuple_size_partial`, `Ast.Lines.first_line_partial`, `Ast.Lines.line_drift_violated`, `Ast.Rpn.flattened_value`, `Ast.Literal.literal_value_partial`, `Ast.Literal.round_representable`, `Ast.Literal.round_nearest`, `Ast.Literal.literal_rounded`, `Gen.accepted_body_generates`, `Gen.control_flow_violated`, `Gen.Scalar.conditional_operands_partial`, `Gen.Vec.scalar_subexpression_partial`, `Simd.filter_short_mask_violated`, `Simd.filter_tail_overread_violated`, `Simd.match_padding_violated`, `Simd.count_true_violated`, `Simd.find_string_false_hit_violated`, `Simd.runs_clean`, `Tbl.argselect_descending`, `Tbl.split_partition`, `Tbl.pick_row`, `Tbl.pick_aligned`, `Tbl.table_filter_short_mask_violated`, `Tbl.head_rows`, `Tbl.tail_rows_partial`, `Tbl.tail_zero_violated`, `Tbl.dedup_keeps_first`, `Tbl.concat_rows`, `Tbl.Col.merge_loaded_column_violated`, `Tbl.Col.merge_unloaded_column_partial`, `Tbl.add_rows_failure_violated`, `Tbl.insert_row_failure_violated`, `Tbl.foreach_visits`, `Tbl.foreach_order`, `Pool.plan_submits`, `Pool.run_inverted_range`, `Pool.Barrier.run_terminates`, `Types.Descriptors.descriptors_violated`, `Tbl.Col.column_current_partial`, `Tbl.Col.get_column_first_partial`, `Tbl.Col.get_column_stale_violated`, `Tbl.Col.set_column_read`, `Tbl.Col.set_column_overwritten_violated`, `Tbl.order_by_unloaded_column_violated`, `Tbl.Col.order_by_changes_source_violated`, `Tbl.filter_mask_pool_violated`, `Exec.repeated_expression_cached_partial`, `Exec.other_signature_recompiled_violated`, `Exec.nested_evaluation_violated`, `Exec.nested_evaluation_first_partial`, `Exec.eval_function_own_source_partial`, `Exec.eval_function_runs_expression_violated`, `Ast.Rpn.total_arity_partial`, `Ast.Rpn.wrong_arity_violated`, `Ast.Validate.functions_accepted_iff`, `Ast.Validate.returns_own_type_partial`, `Ast.Validate.returns_first_type_violated`, `Ast.Literal.literal_suffix_partial`, `Ast.Literal.literal_zero_fraction`, `Ast.Literal.literal_point_violated`, `Gen.Scalar.operand_order_partial`, `Gen.Scalar.well_typed_compiles`, `Gen.Scalar.well_typed_compiles_partial`, `Gen.IntOps.arith_wraps`, `Gen.VecBits.bit_slice_violated`, `Gen.VecBits.new_vector_room_violated`, `Session.source_independent`, `Session.history_partial`, `Stl.vector_find_large_violated`, `Stl.map_insert`, `Stl.map_get_partial`, `Simd.split_by_string_violated`, `Memory.Threads.memory_usage_quiet`, `Gen.Flt.max_min_int`, `Gen.MathFns.rounding_agrees_partial`, `Gen.MathFns.clamp_partial`, `Gen.MathFns.clamp_violated`, `Tbl.Schema.add_columns_failure_violated`, `Schemas.registry_one_schema`, `Tbl.Cells.pb_repeated_partial`, `Tbl.Cells.pb_repeated_violated`, `Comp.Function.call_deterministic`, `Comp.Vars.place_in_branch_violated`, `Comp.Vars.stack_of_loop`, `Comp.Vars.stack_in_loop_violated`, `Comp.Accept.expression_type_predicted_partial`, `Comp.TableFn.someLib_ok`, `Pb.repeated_find`, `Pb.null_container`, `Pb.fbs_get`, `Pb.repeated_get_partial`, `Pb.map_get_partial`, `Pb.repeated_get_range_violated`, `Pb.map_get_message_violated`, `Simd.Sort.sort_refused`, `Simd.Sort.history_keeps_elements`, `Simd.Sort.exampleLib_keeps`, `Ctx.NewVec.booleans_kept`, `Ctx.NewVec.set_readonly_violated`, `Memory.ArenaStr.strings_live_in_their_arena_partial`, `Memory.ArenaStr.strings_without_reset_partial`, `Memory.ArenaStr.never_wrong_text`, `Tbl.Indices.indices_after_first_partial`, `Tbl.Indices.first_call_alone`, `Tbl.Indices.table_indices`, `Tbl.Indices.first_calls_violated`, `Exec.EvalText.every_call_answered`, `Ctx.ResetOrder.large_piece_violated`, `Tbl.KeyBytes.no_columns_violated`, `Tbl.Typed.refused_halfway_violated`, `Ctx.Random.one_sequence_partial`, `Ctx.Random.reproducible_partial`, `Ctx.Random.later_seed_violated`, `Ctx.Random.same_seed_again_violated`, `Ctx.Random.after_reset_violated`, `Memory.Destroy.released_once_partial`, `Types.TypeIds.no_deadlock`, `Types.TypeIds.two_units_violated`, `Types.Descriptors.descriptors_violated`, `Types.TypeIds.calls_are_short`, `Types.TypeIds.calls_return`, `Log.EveryN.lost_violated`, `Pool.Global.one_pool_partial`, `Pool.Global.initialised_first_partial`, `Pool.Global.init_at_the_same_time_violated`, `Pool.Global.init_afterwards_violated`, `Pool.Global.no_limit_violated`, `Pool.Global.calls_return`, `Pool.Global.no_deadlock`, `Log.Logger.kept_partial`, `Log.Logger.destroyed_violated`, `Log.Logger.lost_violated`

### none

`Lru.lru_lowered_capacity_violated`, `Types.Str.ignore_case_violated`, `Types.DT.dtype_lt_antisymm_violated`, `Types.DT.dtype_lt_cycle_violated`, `Tbl.concat_other_schema`, `Types.DT.get_dtype_nested_array_violated`, `Ast.SymbolsRace.symbols_race_violated`, `Pb.set_string_null_violated`

### propext

`Func.compare_signature_iff`, `Memory.arena_over_aligned_violated`, `Memory.arena_failed_allocation_counted_violated`, `Types.Par.params_contains_violated`, `Types.Conv.convert_same`, `Types.DT.tuple_size_pair_violated`, `Ast.Validate.accepted_jumps_in_loops`, `Ast.Validate.jumps_in_loops_not_refused`, `Ast.Validate.loop_depth_restored`, `Ast.Validate.accepted_functions_jumps`, `Gen.Scalar.assignment_changes_other_violated`, `Gen.Scalar.conditional_operand_call_violated`, `Gen.Scalar.conditional_operand_trap_violated`, `Gen.Vec.padding_trap_violated`, `Gen.Vec.scalar_subexpression_violated`, `Func.CallConv.member_args_violated`, `Gen.IntOps.common_is_wider`, `Simd.sum_overflow_violated`, `Simd.find_string_missed_violated`, `Simd.find_string_empty_violated`, `Simd.join_runs`, `Tbl.argselect_ascending`, `Tbl.group_by_vector_size`, `Tbl.foreach_mask_size`, `Tbl.handle_int`, `Func.column_allowed_iff`, `Lru.thread_cached_lru_isolated`, `Lru.get_or_insert_hit`, `Tbl.Col.set_column_size`, `Tbl.order_by_refused`, `Tbl.map_rows`, `Tbl.flat_map_rows`, `Ast.Literal.index_value_partial`, `Gen.returns_a_value_violated`, `Gen.Scalar.operand_order_violated`, `Gen.IntOps.compare_mixed_violated`, `Gen.IntOps.arith_mixed_violated`, `Gen.Vec.operand_count_violated`, `Gen.Vec.function_operand_violated`, `Session.history_violated`, `Session.call_target_violated`, `Access.access_chain_violated`, `Stl.vector_find_null`, `Stl.vector_find_object_violated`, `Stl.vector_get`, `Stl.vector_add_partial`, `Stl.vector_add_null_violated`, `Stl.map_null`, `Stl.map_get_missing_violated`, `Simd.split_by_empty_violated`, `Memory.Threads.reset_race_violated`, `Gen.Flt.float_ne_nan_violated`, `Tbl.Schema.row_set_violated`, `Tbl.Cells.pb_cell`, `Tbl.Cells.fb_cell_partial`, `Tbl.Cells.fb_repeated_partial`, `Tbl.Cells.fb_cell_violated`, `Comp.Vars.unwritten_variable_violated`, `Comp.Accept.assignment_of_other_type_violated`, `Comp.Accept.update_of_larger_type_violated`, `Comp.Accept.string_argument_violated`, `Comp.Accept.unassigned_variable_violated`, `Comp.Accept.select_type_violated`, `Simd.Distance.distance_sizes`, `Simd.Distance.dot_sizes`, `Memory.ArenaStr.assigned_string_violated`, `Memory.ArenaStr.moved_string_violated`, `Memory.ArenaStr.later_text_violated`, `Tbl.Indices.first_calls_race_violated`, `Memory.Destroy.std_vector_violated`, `Memory.Destroy.disabled_in_map_violated`

