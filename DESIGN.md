# Formal model of RoughPy (Lean 4)

Source modelled: `/repo` (datasig-ac-uk/RoughPy at the pinned commit), read as text only.

## Layout

* `properties.jsonl` — the properties (generated by `tools/gen_props.py`).
* `lean/Verif/<Area>/Model.lean` — model of the code, function by function; every
  definition cites the file and lines it models.
* `lean/Verif/<Area>/Spec.lean` — small independent specification vocabulary
  (sets of reals, words, concatenation product, ...), free of model helpers.
* `lean/Verif/<Area>/Lemmas.lean` — helper lemmas.
* `lean/Verif/<Area>/Props.lean` — the property theorems, each with an `example`
  exhibiting a non-trivial case that meets its hypotheses.
* `MANIFEST.json` — property → theorem names and status.
* `seeded/LOG.jsonl` — mutation log.

## Trusted base

* Lean 4.33.0 kernel, Mathlib (imported module by module). Axioms used: only
  `propext`, `Classical.choice`, `Quot.sound`. No `sorry`, `native_decide`, `bv_decide`,
  no added axioms.
* The correspondence between the C++/C/Python source and the Lean definitions, which is
  by reading; each definition cites its source lines and lists simplifications.

## Modelling decisions (simplifications common to all areas)

1. **Scalars** are exact: tensor coefficients live in an arbitrary commutative ring
   (a `ℚ`-algebra where the code divides). Floating-point rounding is not modelled.
2. **Parameters** (`param_t = double`) are rationals/reals; rounding of `ldexp`, `floor`
   is exact for doubles of moderate size and is treated as exact.
3. **Machine integers** are `ℤ`/`ℕ` unless the property is about overflow; preconditions
   are stated when the code has explicit guards.
4. **Memory**: dense kernels run on `Buf` = (size, contents); reading or writing outside
   is a distinct outcome (`none`, "undefined behaviour"), never a default value.
5. **Threads**: not modelled, each operation is atomic (the code holds locks around them, except for
   the caches of shuffle products, see the findings).
6. Python argument parsing, NumPy object handling, reference counts: not modelled except
   where a property is about them.

## Plan per property

| id | model | method |
|----|-------|--------|
| C01 | `Dyadic` comparison operators | refutation by witness; `_partial` for equal powers and for the `rational_equals` test |
| C02 | `rebase` with its decrement loop | induction on loop |
| C03, C04 | `DyadicInterval` constructors | floor/ceil arithmetic |
| C05 | `to_dyadic_intervals` loops with fuel; `none` = does not terminate in fuel | loop invariant, explicit sufficient fuel; refutation for Opencl |
| C06–C08 | tree operations, `contains_dyadic`, `operator<` | integer arithmetic; refutation for Opencl `expand_interval` |
| C09 | intersection/union | case analysis; refutation for the disjoint case |
| C10, C11 | `Partition` state machine | invariant; refutation for `mesh` |
| C12 | index arithmetic on words | induction on words |
| C13–C17 | dense kernels as loops over `Buf` | refinement to concatenation product on words; power series for exp/log |
| C18 | antipode kernel | index reversal lemma; algebra |
| C19 | mask loop | equality with the recursive definition, algebra laws |
| C20 | half shuffles of words with their caches (`Lite/ShuffleModel.lean`) | induction over words, invariant of the cache for every history of lookups; refutations |
| C21 | adjoint kernel | double sum exchange |
| C22, C23 | signature as product of exponentials, log, Dynkin map | Hopf algebra on words: shuffle characters, infinitesimal characters, Dynkin operator = antipode ⋆ grading |
| C25–C28 | Hall set tables, bracket recursion, cache | invariants, well-founded recursion, history independence; refutation for custom tables |
| C29 | SMHelper state machine | refinement to finitely supported function |
| C30 | wrapper parameter logic + kernels | partial (equal depth) + refutations |
| C31, C32, C80 | object state machine / checker | refutation + partial |
| C33–C42 | stream classes over an abstract group of signatures / Lie type with cbh | refinement, invariants, refutations |
| C43–C45 | schema | list arithmetic; refutation for helper overloads |
| C47 | inverse loop | refutation + what it does compute |
| C48, C49 | vector containers | refinement to functions |
| C50 | size tables, Python methods; dimensions as `Module.finrank` of the span of Lie words | positive theorem for `LiteContext`, refutation for the tables `ContextBase` computes itself |
| C51, C52 | resolution and support logic | case analysis |
| C53, C54 | interval predicates, partition equality | case analysis, refutation for mixed types |
| C55 | `TensorKey` operations | list arithmetic, refutations |
| C56 | shuffle adjoint | pairing identity |
| C57 | concurrent cached queries: programs over atomic cache cells, arbitrary interleavings | invariant over schedules |
| C58 | time channel of tick data | list induction, refutation for unsorted stamps |
| C59 | refinement loop of dynamically constructed streams | tree invariant; refutation |
| C60–C62 | schema labels, finalisation, `get_labels` | list induction over reachable schemas; refutations |
| C65 | dimension formulas, constructor in bounded arrays | Lazard elimination by generating functions gives Witt's formula for Hall tables; equality with the Möbius sum |
| C66 | `construct_new_l2t`, `lie_to_tensor` (`Lie/Maps.lean`) | every column built is the commutator polynomial of its key, by induction over the degrees; then the matrix application of C29 |
| C67 | `construct_new_t2l`, `tensor_to_lie` (`Lie/Maps.lean`) | every column is the right-nested bracket of its word (uses the multiplication table, C28); coordinates unique by independence of Hall polynomials |
| C68 | `AlgOps.mul`, `commutator`, `gradedFma`, `denseFma` (`Lite/Model.lean`) | a lawful-tensor interface proved for both storages; induction over expressions |
| C69 | `AlgOps.exp`, `log`, `fmexp` (`Lite/Model.lean`) | Horner loops of the interface are the series of C15–C17 |
| C70, C71 | `HallSet`, `lieProd`, `LieOps` (`Lite/HallModel.lean`, `Lite/LieModel.lean`); C25, C26, C28 for the C++ library | the Hall set represents the table of C26, so lookups agree; the cached recursion on keys terminates by the measure of C25 and gives commutators for every cache that can arise; the graded loop adds the bracket up to the depth by homogeneity; induction over expressions; `==` by independence of Hall polynomials |
| C72, C73 | `LiteCtx.lieToTensor`, `tensorToLie` (`Lite/MapsModel.lean`, `Lite/ContextModel.lean`); C23, C28 for the context | expansions and bracketings of keys by well-founded recursion for every state of the memory that can arise; linearity of the loops; Dynkin's theorem |
| C24 | `LiteCtx.cbh`, `cbhPair`, `convertLie` | the loop multiplies exponentials; logarithms of group-like series are primitive, hence fixed by the Dynkin operator; equality by independence of Hall polynomials |
| C46 | `LiteCtx.deriveSeries`, `sigDerivative` | the derivative of `exp(X + tY)` is `exp(X)` times the series of iterated commutators (`Tensor/Deriv.lean`, product rule on polynomial families); refutation for two intervals |
| C74 | `constructImpl`, `convertTensor`, `convertLieFrom`, … | assignment loops as last-value functions; truncation of primitive series is primitive; refutations |
| C75 | `LiteCtx.signature`, `logSignature`, `toSignature`; C22 for the context | loop invariant: product of exponentials |
| C76 | the storage type argument of the functions above | from the theorems above; refutation for `cbh` of two elements |
| C77, C78 | `shuffleMultiply`, `halfShuffleMultiply`, `*`, `*=` of shuffle tensors (`Lite/ShuffleModel.lean`) | the product loop computes a bilinear product whose values on words are those of C20; laws of half shuffles of series (`Tensor/HalfShuffle.lean`) |
| C79 | the recorded degree of dense results | every write leaves entries; refutation |
| C81 | `parseLetter`, `showLetter` (`Poly/Model.lean`) | decimal reading and printing by induction; refutations |
| C82, C83, C87 | `Mono.mul`, `Poly.*`, `binaryOp` with the dispatch of CPython | invalid iterators are a distinct outcome; every operation is mapped to `AddMonoidAlgebra ℚ (Letter →₀ ℤ)` |
| C84 | `Mono.eval` | sum of powers; refutation |
| C85, C86 | `inplaceSlot`, `Store.augAssign` (objects with reference counts) | case analysis; the counts as a function of the variables; refutations |
| C88 | `saveMono`, `loadPoly` (token lists) | round trip by induction over the terms; refutation |
| C89 | `Mono.lt`, `monomialCompare` | a lexicographic linear order |
| C90, C91, C92 | `DL.rows`, `Buf.rows`, `bufferStamps` over byte memory (`Verif/Args/Model.lean`) | reads outside memory, shape or strides are a distinct outcome; the result is compared with the element at each index |
| C93, C94 | packing of a word; `computeScalarType` | bit arithmetic; fold over the types compared with a maximum of levels; refutations |
| C95 | `parse`, `streamRows` on a tree of Python values (`Verif/Args/Tree.lean`) | relational specification of what a value means; induction over the items |
| C96 | `fromIncrements` (`Verif/Args/Increments.lean`) | direct; inductions over the lists of time stamps |
| C97 | `Poly.degree` | fold as a maximum |
| C98, C99 | states of heap and scalars, `step` over programs (`Verif/Scalars/Model.lean`) | invariant `Good` (exact ownership) by induction over programs; frame lemma for the others |
| C100, C101, C102 | assignment, `inplace`, `neg` of `Scalar` | outcome on the value from `Good`; the meaning of a value is a Laurent polynomial; refutations |
| C103, C104 | `equal`, `divide` | decision of equality of meanings for every pair of types; type confusion shown for all operands |
| C105, C106 | `segment` with `DyadicSearcher` and `ScaledPredicate`, as it is, on top of the interval model | invariant of the scan: the map of found intervals holds maximal runs of good cells, everything behind the scan is covered; any predicate: chains of good blocks |
| C107, C108 | `from_values` and `value_at`/`terminal_value` over the cached increment stream of the stream model; the tensor library enters through its algebraic laws (`TensorInterprets`), sorting and `frexp(inf)` as parameters. Telescoping product over the increments before the cell of `t`; histories by the cache invariant. C108 refuted in general (`C108_at_sample`). |
| C109, C110 | `query`, `signature` of `TensorValuedStream`; Chen over grid cells for the shared increment stream; refutations for touching intervals and intervals beyond the domain. |
| C111, C112, C113 | `AlgebraBase` over `AlgebraImplementation` as functions on handles (unset, or a vector with its context); programs as lists of statements on variables. One refinement theorem by induction over the program, from laws of the vectors (`Backend.Lawful`) that both storage types satisfy in every context; unset operands, aliasing and zero factors that the code gets wrong are excluded by `Safe` and refuted. |
| C114, C115 | `operator[]` through `index_to_key`, and the pairing loop; from the description of iteration and storage (`Items`, `Dense.items_spec`). Refuted beyond the storage of dense tensors and for different widths. |
| C116, C117 | `ScalarArray` over blocks of memory and reference counted buffers; programs as lists of statements (`Verif/Arrays/Model.lean`). Invariant by induction over programs: every array is in order and the count of a buffer is the number of its owners; frame condition per statement (`Effect`). Reading freed or absent memory and releasing twice are the outcome `ub`. |
| C118, C119 | bounds and constness by cases; constant memory by an invariant over all programs (no precondition); copies by induction over the copy loop. Refutations for the storage modes the code confuses. |
| C120 to C124 | `LieKey` as the array of words the code stores (`Verif/Keys/Model.lean`), brackets as trees and the Hall set defined on trees in `Spec.lean`. Induction over trees for parsing, printing, comparing; induction over the rows of a Hall table for keys of a basis (`TreeAt`); the order of brackets is shown to be the order of rows. Reading past the end and recursions that do not end are `none`. |
| C125 to C131 | The parsers of query arguments and keyword arguments as functions from Python objects (an inductive type) to calls of the C++ stream or an exception (`Verif/Query/Model.lean`, `Metadata.lean`). The spec says what the arguments mean (`Says`, `WantsCtx`, `DSays`, `KW.Wants`). Case analysis; induction over lists of pairs and of channels. Null pointers and uncaught exceptions are outcomes of their own. |
| C132, C133, C134 | `Verif/Pickle`: states of intervals and partitions as tuples; archives of elements byte for byte (`cereal` binary, class versions left out) as writers to and readers from byte lists, an outcome for exceptions and one for undefined behaviour. C132 by the characterisation of partitions that come back. C133 by reading back what was written, field by field, and the construction of a dense vector from a list; refutations over all sparse, unset and rational elements. C134 from monotonicity of readers: more bytes at the end do not change what was read. |
| C135 to C137 | `Verif/Parse`: Python objects as an inductive type (values, lists, tuples, dicts); `parse_schema.cpp` and `tick_stream.py` function by function, an exception is `none`. The layouts are inductive predicates in `Spec.lean`; parsing is shown to give what a layout stands for by induction on the layout. |
| C138, C139 | `Verif/Ticks`: the tick construction helper and conversion of time stamps function by function, on top of `Verif/Schema`; an exception is `none`. Induction over the ticks with an invariant on the recorded ticks, the reference time, the counts per time and the schema. |
| C140 | `Verif/FromData`: `construct` of tick_stream.cpp from the Python object to the answer of a query, composed of the models of the parser, the keyword arguments, the helper and the tick stream. The loop over the ticks refines the changes of a path (induction); then C138, C40 and the grid. |
| C141, C142 | `TensorFn/Model.lean` follows `roughpy/tensor_functions.py` function by function: dictionaries are lists of entries, a tensor is its list of items, keys multiply as `TensorKey` does (right factor first), a constructor given an empty dictionary raises. Proved by pairing every dictionary with an arbitrary function on keys, under which every loop is linear; the logarithm, group-like series and shuffles are those of `Tensor/Spec.lean`. Not modelled: contexts that differ, printing, scalars that are not a field (floats: rounding). |
| C143 | `Lite/AntipodeModel.lean`: `antipode_helper` (table of exchanges, tiles, untiled and tiled levels), `unpacked_tensor_word::advance`, the loop for sparse vectors.  Proved by the invariant of the exchanges collected so far (an involution applied exactly once), the counting of the middle words, and an invariant over the levels; `AntipodeProps.lean`.  Partial: a dense tensor without storage is read outside (`C143_empty_refuted`). |
| C144 | `Lite/AdjointModel.lean`: the three kernels of `left_ftm_adjoint` (dense with dense, dense with sparse, sparse), `tensor_basis::parents` in 64-bit arithmetic, the dispatch of `adjoint_to_free_multiply`.  Proved by the loop lemma for arrays that are added to, degree by degree, and the word form of the sums; `AdjointProps.lean`.  Partial: only two dense tensors of one class work (`C144_…_refuted`). |
| C145 | `Arrays/KeyModel.lean`: `KeyScalarArray` over the scalar arrays of `Arrays/Model.lean`, with a second memory for keys: constructors, copies, moves, assignments, `allocate_keys`, `allocate_scalars`, `keys`, `copy_or_move`, destructor; reading freed keys, freeing twice and out of bounds are an outcome of their own.  Proved by an invariant over programs (each block of keys has at most one owner, blocks of the library exactly one), `KeyLemmas.lean`, `KeySteps.lean`; spec in `KeySpec.lean`.  Partial: `C145_…_refuted`. |
| C146 | `Arrays/StreamModel.lean`: `KeyScalarStream::push_back` and `operator[]`, `ScalarStream(base, shape)`, counts.  Proved by induction over the pushes; `StreamProps.lean`.  Partial: `C146_…_refuted`. |
| C147 | `Threads/Model.lean`: `RefCountedMiddle`, `RefCountBase`, `intrusive_ptr_release`, `~ObjectBase` as steps of threads; the decrement and the deletion are two steps.  The C++ memory model is represented by views (sets of uses that happened before), released and acquired by the read-modify-writes according to their orders.  Proved by an invariant over all schedules (`Lemmas.lean`).  Partial: `RefCountBase` has an uninitialised counter. |
| C148 | `Batch/Model.lean`: the outer loops of `roughpy.compute` over numpy arrays (`binary_function_outer`, `ternary_function_outer`, `advance`, `check_dims`), addresses and strides in bytes, the kernels as programs of reads and writes.  `Batch/Lemmas.lean`: a program on rows is the kernel of `Tensor/Model.lean`; `Batch/Loop.lean`: the loop visits every index of the batch once and rows do not disturb each other.  The theorems then follow from C13, C19, C21, C24.  Partial: rows have to be contiguous, long enough and apart from the output, which is not checked. |
| C149 | `Generics/Model.lean`: the four conversion helpers over the ten built-in types (integers, floating-point numbers as rationals with infinities and NaN), the tables of conversions, promotion. Rounding, operations and representation of floating-point numbers are parameters with the assumptions of `Env.Ieee`, which `Generics/Machine.lean` shows to be satisfiable with the IEEE 754 representation. By cases on the types. |
| C150 | `Generics/Model.lean`: a value is a word of eight bytes with a type; assignment, move, arithmetic, comparison read and write the low bytes, so that reading an object in the wrong type has its real effect. Round-trip of representation, then by cases. |
| C151 | `Generics/OwnModel.lean`: variables with pointers into a heap whose objects are never allocated again; refinement of the obvious semantics of variables, by an invariant over all programs. |
| C152 | `Sound/Model.lean`: the file as a list of frames behind a handle with a position, `query_impl` with its loops, the rows taken from the buffer, the stream as an instance of the caching layer of C33–C36 with `none` for an exception; the rows are the movements filtered by time (induction over the loop), the stream by composing cells. Doubles are rationals; scalar types are not modelled. |
| C153 | `GenPoly/Model.lean`: `boost::container::flat_map` as a block with a capacity and a sorted list, iterators as positions in a block, compared as addresses as compiled code does; access to the place past the last element is undefined (`none`). The loops are proved against evaluation of lists of terms, by induction over the terms of the right operand. |
| C154 | The same model; polynomials in normal form as `MvPolynomial`s, whose equality is that of functions over the rationals (Mathlib). Orders by cases on the lexicographic comparison. |
| C155 | `BigNum/Model.lean`: integers as `ℤ`, fractions as numerator and denominator as stored, the functions of GMP by their manual (undefined outside of canonical form and where GMP aborts), the traits and the functions on values above them. Canonicalisation is proved against ℚ, the rest by cases; formulas by induction. |
| C156 | `GenArr/Model.lean`: memory as blocks of cells that are never allocated again, a cell holding an object or nothing; the two kinds of element types (with and without memory of their own) and every function of `generics::Array` on top. Refinement of variables that hold lists, and an invariant of ownership, both by induction over all programs; the operations that break them are excluded and refuted. |
| C157 | `PolyText/Model.lean`: texts as lists of characters, the four regular expressions as matchers without backtracking, reading into the sorted maps of C153, and the text that is shown. Reading inverts the text of `PolyText/Spec.lean`, by induction over terms and factors; normal form of whatever is read, by induction over the matches. `std::stod` is a parameter. |
| C158 | `Numpy/Model.lean`: `__array__` of elements, that is `algebra_to_array` with its three helpers and the table of types; elements as lists of coefficients or of positions and coefficients. Case analysis; for sparse elements the negation is proved for every element that is not zero. |
| C159 | `Tensor/IterModel.lean`: the iterator as a state machine, on top of the tensor bases of C12 and the keys of C55; `Tensor/IterSpec.lean` lists words. Induction over the length of words for the order of the keys, over the iterator for what a loop sees. |
| C160 | `PyOps/Model.lean`: the tables of operator overloads of elements and of `Scalar`, overload resolution of `pybind11` in two passes, reflected and in-place operators; programs on top of the elements of C111, and a small model of names and objects. Each covered statement is shown to be the library statement with the same meaning, then C111 applies. |
| C161 | `Args/Ctor.lean`: keyword arguments, the data argument (C95) and the deduction of sizes, up to the call of the context, which is C74. What the context is asked for is computed by cases on what is given; C74 then gives the coefficients. |
| C162 | `HostMem/`: memory objects of the host device with allocation, views, copies and destruction; a block is a list of cells with a size in bytes, undefined behaviour a separate outcome. Case analysis over sizes and modes; allocation is classified for all sizes. The other interface (`devices/`) is modelled with C116. |
| C163 | `CacheArr/`: the scratch array with its inline buffer, the blocks it allocated and its operations; histories as lists of operations. Invariant (inline, or exactly one live block of the right size) by induction over the history. |
| C164 | `PyOps/Compare.lean`: overloads of `__eq__` and `__ne__` with the casters of C160, and Python's order of asking both operands. Cases on the operands. |
| C165 | `ElemIter/Model.lean`: `__iter__`, `next` and the items in Python with the shared interfaces and keep-alive; the element is the list it stores and is not changed meanwhile. Refinement to iterators over a list, by induction over the program. |
| C166 | `Launch/Model.lean`: launch parameters of kernels and the mask of the work with 32- and 64-bit arithmetic. Arithmetic of rounded division; a mask word is checked for each of its 64 shifts. |
| C167 | `TypeName/Model.lean`: `get_type` on every ASCII string, with the parser of numbers and the 8-bit arithmetic, and the string `dtype` of signatures. Cases on what was found. |
| C63, C64 | `TickStream.from_data`, tick helper | telescoping sums; stable order as invariant of histories |

## Findings

Code that violates a property.  Each item with a theorem name is proved; the others are
observations made while reading and are not proved.

### Intervals and partitions
* `Dyadic::operator<` compares `k·2^n`-style values and is wrong for different powers
  (`C01_dyadic_compare_refuted`).
* `rebase` and the interval constructor beyond the 31-bit guard (`C02_rebase_guard_refuted`,
  `C04_interval_of_dyadic_guard_refuted`).
* `to_dyadic_intervals` with open-closed type never returns (`C05_opencl_never_returns`).
* `expand_interval` on an open-closed interval returns the wrong parent
  (`C07_expand_opencl_refuted`); `shift_forward`/`shift_back` are swapped
  (`C07_shift_names_swapped`).
* `operator<` on intervals of different type is not a strict weak order
  (`C08_order_mixed_refuted`).
* `intersection` of disjoint intervals is `[0,1)`, and loses the open-closed type
  (`C09_intersection_disjoint_refuted`, `C09_intersection_opencl_refuted`).
* `Interval::contains` for mixed types (`C53_contains_mixed_refuted`).
* `Partition::merge` across a gap loses points (`C10_merge_disjoint_refuted`), `mesh` returns the
  smallest length (`C11_mesh_refuted`), `==` ignores the intermediate points
  (`C54_partition_eq_refuted`).

### Tensor kernels and keys
* `antipode` at depth 0 writes out of bounds (`C18_depth_zero_refuted`).
* `ft_adjoint_left_mul` with a shallow operator ignores levels (`C21_shallow_operator_refuted`).
* Operands of different depths (`C30_refuted`).
* `tensor_basis::parents` above degree 2 (`C12_parents_pair_refuted`); order of unpacked words
  (`C12_unpacked_order_refuted`).
* `TensorKey`: `*` reverses, `split_n`, width-1 index constructor, letter 0, hash/equality
  (`C55_*_refuted`).
* Not proved: `dense_ft_exp`/`dense_ft_fmexp` ignore `arg_depth`; the last array dimension is never
  checked; parse format of `dense_antipode`; `index_to_key`/`advance_key` beyond the depth.

### Streams
* Finer than default resolution loses data (`C33_finer_resolution_refuted`,
  `C34_chen_default_refuted`, `C40_finer_refuted`).
* The cache key ignores the context (`C35_mixed_contexts_refuted`).
* The type of the query interval is ignored (`C36_query_type_refuted`).
* Increments with equal time stamps are dropped; an increment at 0.3 is invisible at the default
  resolution (`C37_duplicate_refuted`, `C37_default_resolution_refuted`).
* `PiecewiseAbelianStream`: `else if (pb <= pb)` (`C38_piecewise_refuted`, `C38_chen_refuted`);
  `simplify` inherits it.
* Arrival streams use a closed range (`C39_shared_end_refuted`).
* `TickStream` constructor does not return for some inputs (`C40_construction_refuted`).
* Dynamically constructed streams: queries on both sides of 0 never finish
  (`C41_both_sides_refuted`, `C41_interval_around_zero_refuted`); the value of a new root is not
  combined from its halves (`C41_tree_refuted`, `C41_brownian_refuted`); answers change
  (`C41_answer_refuted`); only the leftmost path is refined (`C59_resolution_refuted`).
* `restrict` replaces the support (`C52_restrict_refuted`).
* Time channel with unsorted stamps (`C58_unsorted_refuted`).
* Not proved: Python `from_increments` never updates `previous` in its minimum-difference loop;
  `param_to_resolution` differs between the Python module and the stream library;
  `BrownianStream` uses `ldexp(0.5, power)` (wrong sign) and its `log_signature_impl` returns an
  empty element; `signature_arguments.cpp` inverted check of `ctype_o`;
  `adjust_interval` is applied twice after `restrict`.

### Schemas and ticks
* A label `a:b` inserted after `a` is dropped silently (`C44_insert_refuted`); colons make labels
  ambiguous (`C60_refuted`); the time dimension has no label (`C60_time_refuted`).
* `finalize(n)` does not reach the width when a label is a number (`C61_refuted`).
* `get_labels` throws for time, Lie and lead-lag increment channels (`C62_refuted`).
* `StreamConstructionHelper::add_categorical` with a channel number and a variant label is off by
  one in every schema (`C45_index_label_refuted`); with a channel label and a variant number it
  counts channels, and throws on final schemas (`C45_label_index_refuted`); `add_value` by label
  ignores the channel (`C45_value_refuted`).
* `TickStream.from_data` records every variant of a categorical channel in the coordinate of the
  first (`C45_from_data_refuted`).
* Not proved: `parse_schema` rejects items `(label, "increment")`.

### Lie bases
* Depth 0: `degree_begin[1]` is never written, `size()` reads it (`C26_depth_zero_uninitialised`);
  `LieBasis(width, 0)` is not rejected.
* `find_word` reads the row after the last one when the pair is beyond all rows of the last degree
  (`C27_find_word_past_end`); the multiplication table never asks for such a pair
  (`C27_find_word_partial`).
* The multiplication cache is shared by all bases of a width, also those with user-supplied rows: a
  lookup through such a basis changes the answers of the default basis
  (`C28_custom_basis_changes_answers`).
* `check_lie_basis_data`: letters need only one correct parent, row zero is not checked
  (`C32_letters_not_checked`); parents are not compared with the row itself, with the degree or with
  other rows (`C32_rows_not_checked`); parents and offsets are used as indices before they are checked
  (`C32_check_reads_outside`); passing the convention by number always selects the second one
  (`C32_requested_convention_ignored`); width 1 is rejected from depth 3 (`C32_width_one_rejected`).
* Not proved: `get_parents` formats `%d` without an argument on its error path; the keyword array of
  `check_lie_basis_data` has no sentinel; exceptions of a user-supplied order are ignored in one branch.

### Hash and comparison of bases
Modelled in `Verif/Bases/Model.lean` (`roughpy/compute/_src/tensor_basis.c`, `lie_basis.c`, `core/src/fnv1a_hash.c`): a world of arrays and
basis objects with their cached hashes.
* `TensorBasis.truncate` and `PyTensorBasis_get` do not set the field of the cached hash, so `hash()` of the new basis is 0
  (`C31_truncated_hash`): `TensorBasis(2, 3).truncate(2) == TensorBasis(2, 2)`, but the hashes differ (`C31_truncate_wrong`).
* The cached hash survives `__init__` and writes to the arrays, which are writable (`C31_init_wrong`, `C31_modified_wrong`).
* `==` of Lie bases compares the rows by their hash only.  FNV-1a has collisions that are easy to compute; two bases with different rows compare
  equal (`C80_lie_collision`).  A stale hash makes bases with the same contents different (`C80_lie_modified`).
* Not proved: `PyLieBasis_get` (never called) leaves the hash and the tables of maps unset; `TensorBasis` accepts strided arrays and reads
  them as contiguous.

### Sparse matrices
* `smh_remove_zeros_from_current_frame` looks at the entry before the current frame when everything in
  the frame cancelled; for the first frame that is the entry before the arrays
  (`C29_cancelled_frame_reads_outside`).  With an entry stored earlier nothing goes wrong
  (`C29_assembly_partial`).
* An estimate of 0 non-zeros: doubling 0 gives 0, the first value is written outside
  (`C29_estimate_zero_writes_outside`).
* The entry points that apply a matrix choose the format from the shape and reject every square matrix
  (`C29_square_rejected`).
* Not proved: `SM_CSR` is 0, so `smh_is_csr` is always false; `py_sparse_matrix_from_components` leaves
  the format unset; `smh_finalize` of a matrix without frames reads `frames[-1]` (width 0).

### Lie maps
* A basis of width 0 is accepted by the constructor; `lie_to_tensor` then reads `frames[-1]` when the matrix is finished
  (`C66_width_zero_reads_outside`).
* `lie_to_tensor` with a tensor basis of another depth raises `ValueError` (`C66_wrong_size`), although the comment in
  `dense_basic.cpp` says that the dimensions have to be at least those of the matrix.
* Not proved: `get_t2l_matrix` does not check that the type is a floating point type (`get_l2t_matrix` does) and does not
  release its reference to the type.

### Vectors of libalgebra_lite
Modelled in `Verif/Lite/Model.lean` (`vendored/libalgebra_lite`: `sparse_vector.h`, `dense_vector.h`, `vector.h`, `tensor_basis.h`,
`basis_traits.h`).
* In-place operations of a sparse vector with itself that produce a zero erase the entry the loop is standing on: `x -= x` is
  undefined for every non-empty `x` (`C48_sub_self_undefined`).
* `add_scal_prod` and `sub_scal_prod` with the multiplier 0 store explicit zeros, after which `==` tells equal vectors apart
  (`C48_zero_multiplier_stores_zero`).
* Reading a `const` dense vector is unchecked; a key of the basis beyond the allocated degrees is an out-of-bounds read
  (`C49_const_read_unchecked`).
* `a *= b` with an empty dense `b` clears the storage of `a` but keeps its recorded degree; after adding a shorter tensor the next product
  reads out of bounds (`C68_dense_cleared_degree`).
* Dense products at depth 0 read past the end of the table of powers (`C68_dense_depth_zero`).
* `add_mul` on dense tensors uses the number of non-zero entries of the output as its length and may cut it off
  (`C68_dense_add_mul_truncates`).  Not reachable from Python: the fused operations are never selected.
* `inverse` has the wrong sign: it inverts `a - y` for `x = a + y` (`C47_inverse_partial`, `C47_inverse_wrong`).  Not bound in Python.
* `exp` keeps the scalar part of its argument in the truncated series, `fmexp` drops it (`C69_scalar_part_differs`).
* Not proved: the constructor of sparse vectors from a list stores zeros; `operator++` of the mutable dense iterator adds one to the raw key,
  so that from the last key of a degree it continues with a key that is not in the basis.

### Lie elements of libalgebra_lite

* `commutator(x, y)` of Lie elements is twice the bracket `x * y` (`C70_commutator_is_twice_the_bracket`): it subtracts
  the two products, and a product of Lie elements already is the bracket.  The contexts only apply it to tensors.
* `out.add_mul(x, y)` on dense Lie elements can lower the recorded degree of `out` below the degrees it stores; later
  products then drop terms (`C70_dense_add_mul_lowers_degree`).  Not reachable from Python.

### The context of libalgebra_lite

Modelled in `Verif/Lite/ContextModel.lean` (`algebra/src/lite_context.h`, `algebra/src/context.cpp`) and `Verif/Lite/MapsModel.lean`
(`vendored/libalgebra_lite`: `maps.h`, `maps.cpp`).
* `sig_derivative` of several intervals is wrong: to the sum for the first intervals, multiplied by the next signature, it adds the derivative
  of the next signature without the factor for the signature of the first intervals (`C46_two_intervals`, `C46_computed`).  The Python test of
  `signature_derivative` uses the same recursion.
* Iterating over a Lie element shows keys counted from one, but keys in arrays given to `Lie(...)` are counted from zero.
  `Lie({1: x})` is `x` times the second letter; a Lie element rebuilt from what iteration shows is another one, and for the last key the
  result is not an element of the context (sparse) or memory is written out of bounds (dense) (`C74_shown_keys`).
* Converting a sparse tensor to a context of smaller depth stores terms under keys the context does not have, or overwrites the scalar term
  (`C74_sparse_from_deeper`); this also affects `lie_to_tensor`, `tensor_to_lie` and the conversion of Lie elements.
* `cbh` of two elements ignores the storage type asked for (`C76_pair_ignores_storage_type`).
* Not proved: `lie_to_tensor` and `tensor_to_lie` of an element of the same context are dispatched on the storage type of the argument, but
  `sig_derivative` casts its arguments to the storage type asked for without a check.
* Not proved: the constructor `maps(width, depth)` does not return after finding the maps in the table, and the destructor frees the tables
  twice for copies; neither is used by the context.

### Shuffle products of libalgebra_lite

Modelled in `Verif/Lite/ShuffleModel.lean` (`vendored/libalgebra_lite`: `half_shuffle_multiplier.cpp`, `shuffle_multiplier.cpp`,
`shuffle_tensor.h`, the graded product of `algebra.h`; `lite_context.h:989-1015`).
* The right half shuffle has the boundary values of the left one: `right(1, v) = 0` and `right(u, 1) = u` (`C20_right_one_wrong`).
  On non-empty words it is the sum of the interleavings that end with the last letter of the right word (`C20_right_partial`).
* With these conventions the left and the right half shuffle of the same pair of words do not add up to the shuffle: for two
  letters both are `ab` (`C20_sum_wrong`).  Either of them adds up to the shuffle with the orders exchanged (`C20_sum`).
* `shuffle_multiply` with a dense factor without entries, and `half_shuffle_multiply` of dense tensors, can give a dense tensor
  without entries that records a positive degree.  Adding another tensor to it keeps that degree with too little storage, and the
  free tensor product of the sum reads outside the storage (`C79_shuffle_zero_wrong`, `C79_half_one_wrong`).
* Not proved: the caches of the half shuffles are guarded by nothing: the mutex `m_lock` is declared and never taken, and the
  multiplications are shared by all contexts of the same width and depth.

### Sizes of contexts

Modelled in `Verif/Lite/SizesModel.lean` (`algebra/src/context.cpp`, `algebra/src/hall_set_size.cpp`, `roughpy/src/algebra/context.cpp`).
* `ContextBase` without a table of Lie sizes multiplies the size of the lower degree by the number of new Hall elements instead of
  adding it: `lie_size(2)` is wrong for every width (`C50_default_lie_wrong`).  `LiteContext` passes its own tables, so Python is not
  affected (`C50_sizes`).
* The same constructor writes out of bounds for depth 0, reads out of bounds for depth 51 (the table of 51 values ends at index 50, but the
  test is `depth > size`) and does not return for larger depths: the loops that extend the table never change their variable
  (`C50_default_fails`).

### Indeterminates, monomials and polynomials

Modelled in `Verif/Poly` (`vendored/libalgebra_lite`: `polynomial_basis.h`, `basis/monomial.cpp`, `algebra/polynomial_multiplier.cpp`,
`packed_integer.h`; `roughpy/src/scalars/r_py_polynomial.cpp`; `scalars/.../scalar_serialization.h`).  Exponents and indices are unbounded
integers where the code has 64 bits (indices below `2^56`); the Unicode tables of CPython are a parameter; an archive is a list of
integers.  Not modelled: the printed form of monomials and polynomials, `__getstate__`/`__setstate__` of polynomials (which treat the
object as a monomial; `polynomial_new` without arguments raises, so that unpickling fails in any case), hashing.
* Letters of names are cut to eight bits and numbers to 56 bits, so that different names give the same indeterminate
  (`C81_wrong_letter`, `C81_wrong_index`).
* `monomial::operator*=` keeps an end iterator of a flat map across insertions; the product of `x` and `y z` is undefined (`C82_wrong`).
* A monomial with an explicit zero exponent is not equal to the one without, and a monomial is not equal to the polynomial with this
  single term (`C83_wrong_eq`).
* `monomial::eval` adds the powers of the indeterminates instead of multiplying them (`C84_wrong`).
* `p -= p` erases elements of the map it iterates over (`C85_wrong_isub`); `m /= c` multiplies by `c` (`C85_wrong_div`); `m ** n` always
  raises and `m **= n` also changes `m` by adding `n` to every exponent (`C85_wrong_pow`).
* In-place operators that return their left operand do so without a new reference; the variable is left with a freed object
  (`C86_wrong`, `C86_wrong_shared`, `C86_wrong_monomial`).
* `p[m]` never returns: making a scalar from the coefficient throws an exception that leaves the slot function (`C87_wrong_get`).
* `p[m] = c` never succeeds (`C87_wrong_set`).
* The archive loader of polynomials reuses one monomial without clearing it; `x + y` is read back as `x + x y` (`C88_wrong`).
* The degree of a polynomial starts from zero: a monomial of negative degree has degree zero as a polynomial (`C97_wrong`).

### Data arguments

Modelled in `Verif/Args` (`roughpy/src/args`: `parse_data_argument.cpp`, `strided_copy.cpp`, `dlpack_helpers.cpp`, `buffer_info.h`;
`scalars/.../packed_scalar_type_ptr.h`; `roughpy/src/streams/lie_increment_stream.cpp`).  Memory of an array is a partial function from
byte addresses to bytes; conversion of one element is a parameter (rounding is not modelled); Python values are a tree of numbers, lists,
tuples, dictionaries, arrays and algebra objects.
* DLPack strides count elements but are compared with sizes in bytes.  `np.arange(9.)[::8]` counts as contiguous and gives `[0, 1]`
  (`C90_step_refuted`); rows with gaps are written over each other (`C90_wrong_rows`); a stride of zero reads behind the element
  (`C90_broadcast_refuted`).
* Unsigned elements are read as signed ones (`C90_unsigned_refuted`, because `C93_info_refuted`); the device of the array is never looked
  at (`C90_device_refuted`); an array without dimensions reads the last entry of an empty shape (`C90_scalar_array_refuted`).
* `BufferInfo::ndim` returns the size of an item: buffers with fewer dimensions than bytes per item read past shape and strides
  (`C91_dimensions_refuted`); column-major buffers are taken as row-major (`C91_columns_refuted`); strides of time stamps are ignored
  (`C92_strides_refuted`).
* Pairs of integers in a list are one sparse row (`C95_tuples_refuted`); whether rows are accepted depends on their order
  (`C95_order_refuted`); the type of a row comes from its first number, which must be exactly `int` or `float` (`C95_type_refuted`,
  `C95_subclass_refuted`); a fraction always raises (`C95_fraction_refuted`).
* `from_increments` drops the keys of sparse rows: `[{2: 5.0}]` is an increment along the first coordinate (`C95_stream_keys_refuted`).
* `from_increments` ignores a given resolution when there are no time stamps (`C96_resolution_dropped`), and chooses the resolution from
  the smallest time stamp instead of the smallest gap (`C96_resolution_refuted`).
* Not modelled: `Context.compute_signature` passes a null pointer by value to `PyArg_ParseTupleAndKeywords`, which writes through it;
  the inferred width of a sparse free tensor is the number of its entries minus one; assignment operators of `KeyScalarStream` and
  `ScalarStream` call their own destructor before assigning.

### Scalars

Modelled in `Verif/Scalars` (`scalars/src/scalar.cpp`, `scalar.h`, `src/scalar/{arithmetic,casts,comparison,type_promotion}.cpp`).  A state
has memory cells with the table of allocations they belong to, and scalars with packed type, storage mode, inline bytes and address.
Undefined behaviour, and an exception that leaves a `noexcept` function, are the outcome `ub`.  Floating rounding and arithmetic are a
parameter.  Not modelled: `half`, `bfloat16`, `Scalar(type, num, denom)`, scalars behind an interface (beyond `Obj.Good.noIface`), allocation
failure.
* Adding to or negating an empty scalar follows a null pointer; so does assigning an empty scalar to an owned zero; `Scalar(polynomial)`
  asks for memory before it has a type (`C98_undefined_refuted`).
* Copy assignment to an inline zero takes over the type of the source, to any other scalar it converts (`C100_scalar_zero`,
  `C100_type_refuted`).
* `-x` is always zero: the visitor that should negate has an empty body (`C102_negation_refuted`).
* In place arithmetic on a reference to an element of a type other than that of the operand reads a pointer as a type description; `p -= p`
  uses an iterator that the loop has invalidated (`C101_undefined_refuted`).
* `2 ** 53` as an eight byte integer is not equal to the same `double`; an eight byte integer is equal to a `float` it merely rounds to; an
  inline `-0.0` is not equal to `0.0`; comparing a `nan` with a rational number ends the program (`C103_*_refuted`).
* `x /= y` changes `x` to the common type and then reads it as the type it had before: `6 / 2.0` reads the bytes of the `double` 6.0 as an
  integer (`C104_confusion_refuted`).  A polynomial can only be divided by a rational number (`C104_polynomial_refuted`).

### Segmentation

Modelled in `Verif/Intervals/Segment.lean` (`intervals/src/{segmentation,dyadic_searcher,scaled_predicate}.cpp`), with exact numbers and a
predicate without side effects.
* The expansion of a found interval does not stop at the ends of the interval that was given: the result can reach outside of it, on the left
  by nearly its length, on the right by nearly half of it (`C106_inside_refuted`, `C106_bounds`).
* An interval closed on the right is searched, and answered, with intervals closed on the left (`C105_opencl_refuted`).
* From depth 31 on `1 << depth` overflows (`C105_depth_refuted`).

Common types of integers, found while tightening the theorems on data arguments: the common type of `int8` and `uint8` depends on the order in
which they are met (`C94_integers_refuted`).

### Tensor valued streams

- At the time of a sample (other than the first) a stream built by `from_values` still has the value of
  the sample before: the increment is stored at the time of the sample and `value_at(t)` uses `[inf, t)`
  (`C108_at_sample`, `C108_refuted`). The Python test asks for `t + delta + epsilon`.
- Samples with equal times: `flat_map::emplace` drops the second increment, so that from there on all
  values are wrong (`C107_tie_refuted`).
- An explicit `support` beginning after the second sample: the initial value is the first sample and the
  increments before the support are skipped (`C107_support_refuted`).
- `from_values` takes the context from the values when none is given, but then compares with the width
  of the (absent) argument and builds the increment stream with a null context
  (`C107_context_refuted`). With a single sample and no resolution, the resolution is computed from
  `frexp(inf)`, whose exponent is unspecified.
- A query with an interval that meets the domain in one end point passes `intersects_with`, but
  `intersection` then returns `[0, 1)` (`C109_touching_refuted`).
- `signature` of a sub-stream is not restricted to its domain (`C110_domain_refuted`).
- Not modelled: values of different depths in one list, `stvs_repr` (calls itself), reference counts of the
  items, errors in `stvs_new`.

### Elements as the user holds them

Modelled in `Verif/Lite/HandleModel.lean` (`AlgebraBase`, `AlgebraImplementation`, the pairing of
`shuffle_tensor.cpp`), over the vectors of `libalgebra_lite`. Scalars are field elements; borrowed elements
are left out. Products of Lie elements run on a given state of the caches (`C70` shows that it does not matter).

- `x + y`, `x - y`, `x * y` and the in-place forms dereference a null context if `x` alone is unset: the
  test for compatible contexts comes before the test for an unset operand (`C111_unset_left_refuted`).
- `x * y` with an unset `y` is `x`, not zero (`C111_unset_right_refuted`).
- `x -= x` on a sparse element erases the entry it iterates over (`C111_sub_self_refuted`).
- `x.mul_smul(y, 0)` on dense tensors clears the storage and keeps the degree; a later product reads out
  of bounds (`C111_dense_zero_refuted`).
- `x.add_scal_mul(y, 0)` accepts a `y` of any other context (`C112_zero_scalar_refuted`).
- `x == y` raises for elements of the same width and different depths (`C113_contexts_refuted`).
- `t[i]` on a dense tensor reads past the end for words beyond its degree (`C114_dense_refuted`); an index
  beyond the basis reads the scalar coefficient (`C114_beyond_refuted`).
- `shuffle @ tensor` compares no contexts: at different widths unrelated words are paired
  (`C115_widths_refuted`); for a dense tensor of lower degree it reads out of bounds (`C115_shorter_refuted`).

### Arrays of scalars

Modelled in `Verif/Arrays/Model.lean`: `ScalarArray` (constructors, copy, move, both assignments, indexing,
slices, `borrow`), `Buffer` reference counts, `convert_copy` of all scalar types. Sizes are in elements, so the
computation of bytes is not modelled; the host device only; `from_raw_bytes` and `load` are left out.

- `ObjectBase` has a `std::atomic` count that no constructor initialises (trivial default constructor before
  C++20), so the count of a new buffer is arbitrary (`C116_leak_refuted`, `C116_freed_refuted`).
- `ScalarArray(TypeInfo, size)` assigns to a union member that was never constructed (`C116_untyped_refuted`).
- `operator=(const ScalarArray&)` allocates a buffer in the union whatever the storage mode of the source is:
  for a view or borrowed array the pointer to the buffer object is then taken for the elements
  (`C119_view_refuted`, `C119_const_view_refuted`, `C119_borrowed_refuted`). For rational numbers it assigns to
  raw memory (`C119_rational_refuted`). An empty source leaves the target as it is (`C119_empty_refuted`).
- `convert_copy` copies as many elements as the target has (`C119_shorter_refuted`); whether a longer source is
  accepted depends on the type (`C119_longer_refuted`).
- Moved-from arrays keep their size; they read as zeros and writing follows a null pointer
  (`C117_moved_refuted`). Moving a borrowed array by assignment leaves it as it was (`C117_move_assign_refuted`).
- Indexing an array without a type follows a null pointer (`C118_empty_refuted`); a slice with begin > end has a
  size near 2^64 (`C118_slice_refuted`), because the order is only asserted.

### Keys of the Lie basis

Modelled in `Verif/Keys/Model.lean`: `PyLieKey`, its iterator, the members of the basis object that take or
give keys, and the texts cached by `hall_extension`. A word of a key is a natural number; arrays are shorter
than 2^63.

- `lie[key]` reads another coefficient for every key of degree two or more: `to_internal_key_recurse` starts at
  the first word as if it were the whole key, and takes the next word instead of the next word of the pair for
  the right part (`C122_lookup_refuted`). `lie[LieKey([1, 2])]` is the coefficient of the letter 1.
- `basis.key_to_index(key)` and `basis.parents(key)` pass `0` on instead of the key
  (`C124_key_to_index_refuted`).
- `key1 == key2` does not compare the right parts of nested brackets (`C123_equals_refuted`); for two equal
  letters it reads past the end of both arrays (`C123_letter_equals_refuted`).
- `lparent`, `rparent` compute wrong offsets for larger parts (`C123_parts_refuted`).
- Key number 0 and numbers beyond the dimension recurse without end (`C121_bounds_refuted`,
  `C124_index_to_key_refuted`). The parser of lists has a check of the letters, `get_width`, that is not called
  (`C120_letters_refuted`).
- `equals`, `degree`, `lparent`, `rparent` are members of the C++ class and are not bound in Python.

### Query arguments and the metadata of streams

Modelled in `Verif/Query/Model.lean` and `Verif/Query/Metadata.lean`: `parse_sig_args`, `sig_deriv`,
`simplify_stream`, `kwargs_to_metadata`, `parse_algebra_configuration`, `finalize_schema` and their use by the
constructors of five kinds of streams. Not modelled: warnings, `vtype`, `interval_type`, conversions of keyword
arguments to C++ types, numpy scalars.

- `signature(sup=1.0)` ignores the end point and uses the whole stream; of two resolutions the one given by
  keyword is ignored (`C125_ignored_refuted`); levels wrap modulo 2^32 (`C125_wrap_refuted`).
- `signature(dtype=rp.SPReal)` without a depth is answered at depth 0 (`C126_dtype_refuted`). Names of types are
  never accepted; an unknown name follows a null pointer (`C126_name_refuted`). A type without contexts (half
  precision) ends the process, as the exception of `get_context` leaves a function called by the interpreter
  (`C126_terminates_refuted`).
- `signature_derivative(((i, l), (j, m)))` takes the two pairs for one (`C127_two_pairs_refuted`). Without a
  resolution, `signature_derivative` and `simplify` use the default one of the metadata, `signature` a finer one
  (`C127_resolution_refuted`, `C128_resolution_refuted`).
- `restrict` followed by `simplify` goes back to the support of the metadata (`C128_support_refuted`).
- A schema of width 3 with `width=3` and a context of width 5 is accepted (`C129_context_refuted`); channels
  whose labels are numbers stop `finalize_schema` from adding channels (`C129_labels_refuted`). Brownian,
  function and piecewise streams do not call `finalize_schema` and take the width from the schema whatever the
  context is (`C129_others_refuted`).
- A context is replaced if the schema has another width (`C130_replaced_refuted`), `include_time=True` with a
  schema always raises (`C130_time_refuted`), every name of a type means double (`C130_type_refuted`), a function
  stream without a scalar type has no context (`C130_function_refuted`).
- `LieIncrementStream.from_increments(data, include_time=True)` overwrites the last column of the data with time
  (`C131_time_refuted`, `C131_column_lost_refuted`). The tests of this case are commented out in the repository.

## Findings: pickling (C132 to C134)

* A partition that holds an end point of its interval (`insert_intermediate` accepts the closed end)
  loses it when pickled: the constructor used by `__setstate__` drops points equal to `inf` or `sup`.
* No sparse element with at least one entry can be unpickled.  `AlgebraBase::load` assigns to
  `get_mut(key)`, a scalar that holds a reference interface; `Scalar::operator=(const Scalar&)` asks
  it for a mutable pointer, which throws.
* An element that holds nothing is pickled with an empty scalar type and `from_context_spec` refuses
  it: `pickle.loads(pickle.dumps(FreeTensor()))` raises.
* Rational coefficients never come back.  `to_raw_bytes` writes the first entry of an array for every
  entry, one byte of the number of limbs instead of eight, and as many bytes of the limbs as there
  are limbs; `from_raw_bytes` reads eight bytes and takes them for a number of bytes, and requires
  one byte more than it needs.
* `load` builds a vector of the class named in the archive and casts it to the class it is loaded
  into without comparing the two.
* `Polynomial.__getstate__` and `__setstate__` (`r_py_polynomial.cpp:344-376`) treat the polynomial
  object as a monomial (`cast_mon`).  Not modelled.

Modelled: `py::pickle` of the four interval classes and of the three element classes,
`AlgebraBase::save` and `load`, `get_context_spec`, `from_context_spec`, `get_type`,
`ScalarArray` and `Scalar` archives, `raw_bytes.cpp` for `float`, `double` and rationals.  Not
modelled: polynomial coefficients, class version numbers of `cereal`, infinities and NaN, negative
widths and depths in damaged archives, `py::bytearray`.

## Findings: schemas and tick data as Python objects (C135 to C137)

- `handle_seq_item` checks `len > 1` before the branch for one element, so `(label, type)` and
  `{label: (type,)}` always raise although the message says `type [, options]`
  (`C135_options_refuted`).
- Options of increment channels are ignored, also `lead_lag` (`C135_increment_refuted`).
- An entry that repeats a label is dropped and its options are applied to the first channel, whatever its
  type (`C135_duplicate_refuted`).
- Tick data with a fifth component is accepted if that component is a dict; it is ignored
  (`C136_extra_refuted`).
- `{time: {"label": …, "type": …, "data": …}}` is always one tick, so three channels cannot have these
  labels in that layout (`C136_names_refuted`).
- `convert_channel_type` has no last branch: ticks of type `"lie"`, `ChannelType.LieChannel` or with a
  misspelt or capitalised type are dropped without an exception (`C137_lie_refuted`,
  `C137_unknown_refuted`).  The branch for other objects reads `__name__` of an instance and raises
  `AttributeError` where `TypeError` was meant; the model does not tell exceptions apart.

Not modelled: the classes of exceptions, `None`, subclasses of `dict`, `list` and `tuple` (these go to
`handle_any`), sequences other than lists, tuples and strings, and objects with a truth value of their own.

## Findings: ticks and their times (C138, C139)

- `add_tick` takes the time of the first tick given as reference time, so that tick is at 0 whatever
  its time is, and the same ticks in another order are at other times (`C138_time_refuted`).
- `generic_to_timestamp` passes an `int` to `PyDateTime_FromTimestamp`, which takes the tuple of
  the arguments: integer time stamps always raise `SystemError` (`C138_integers_refuted`).
- A tick of another type under a known label is accepted and the channel keeps its first type
  (`C139_types_refuted`).  A label with a `:` is taken for a part of the channel before it
  (`C139_labels_refuted`).
- `TickStream.from_data(schema=…)` finalizes the schema before the ticks are read, so ticks with new
  labels are recorded and refused only when the stream is made.
- `DateTimeInterval` has no Python constructor, `convert_timedelta` always returns 0, and the reference
  time of `PySchemaContext` is never set.  Not modelled.

Modelled: `RPyTickConstructionHelper` and its `add_*` methods, `convert_delta_from_datetimes`,
`generic_to_timestamp`, `pytimedelta_to_param`, `get_py_reference_delta`.  Floats are rational numbers;
classes of exceptions and reference counts are left out.

## Findings: streams made from tick data (C140)

- Times are counted from the first tick given.  If any tick is earlier, there is a tick before 0 as well as
  one in the first cell, and the constructor of the tick stream does not return, whatever the keyword
  arguments (`C140_order_refuted`).
- Without `support` the support is `[0, 1)`, whatever the times, and every query is cut down to it:
  ticks 1 or more after the first are in no signature (`C140_support_refuted`).  Without `resolution` the
  resolution is 0, so that all ticks of `[0, 1)` are one step.
- Proved for data without categories and without a schema given; categories are in `C45_from_data_refuted`.

Modelled: `construct` up to `RPyStream_FromStream`, `Stream::log_signature` with and without a resolution.
`std::sort` is any function that permutes and sorts; scalars are rational numbers; `py_to_scalar` takes
numbers only.  `adjust_interval` is taken to be the identity, as it is without a parametrization of one's
own.

### C141, C142: `tensor_functions.Log`

* `_concatenate` passes its dictionary to the constructor of the tensor even if the dictionary is empty, and the
  constructor refuses empty dictionaries.  `Log` therefore raises for every tensor in every context of depth three or
  more (`C141_deep_refuted`): the triple convolution applies the double one to the empty word, where it vanishes.  At
  depth two it raises exactly when the degree-two part is antisymmetric, which includes the unit and the exponential of
  any bracket (`C141_raises`, `C141_trivial_refuted`).  The only test in the repository is at depth two with a generic
  tensor.
* Since the product of keys puts the right factor first, `_adjoint_of_shuffle` gives the coproduct with both words
  reversed (`C141_adjoint_partial`, `C141_adjoint_refuted`); `_concatenate` puts the right factor first again, so that
  in degree two the result is not affected.
* `TensorTensorProduct((x, y))` without a context evaluates `data[2]` of a pair and raises (`C142_context_refuted`).
* `add_scal_div` and `sub_scal_div` keep entries that have become zero, unlike `add_scal_prod` (`C142_zero_refuted`).

### Antipode of free tensors (C143)

- `antipode` of a dense tensor without storage (`dimension() == 0`: a zero tensor made by a context, or
  one emptied by `clear`) copies `*src` to `*dst` for degree 0 although both arrays are empty
  (`free_tensor.h:587-589`): undefined behaviour, `C143_empty_refuted`.
- Not modelled: the moved-from entries of the tile, 64-bit overflow of indices.  Letters of
  `unpacked_tensor_word` are modelled as unsigned shorts, whence the bound on the width.

### `adjoint_to_free_multiply` (C144)

- With a sparse argument the result is always zero (`C144_sparse_zero_refuted`): `eval` passes
  `inplace_binary_op` a function that returns the new coefficient, which `inplace_binary_op` discards
  (`free_tensor.h:972-975`, `sparse_vector.h:468`, `:477`).  The zeros are stored, so that the result does not compare
  equal to the zero tensor (`C144_sparse_unit_refuted`).
- `tensor_basis::parents` subtracts `letter * m_width` instead of `letter * m_powers[degree - 1]`; for a word of one
  letter other than the first the index wraps around into the degree bits, and `shift_down` goes on with a word of
  degree 255, reading outside `m_powers` (`C144_sparse_letter_refuted`).
- With a dense argument and a sparse multiplier the start of the degree is missing from `iptr`
  (`free_tensor.h:1001`; `C144_mixed_refuted`).
- `resize_exact` is called without a degree, so that the result has degree 0 on record whatever it contains.  A second
  application with a multiplier whose scalar term is not zero writes past the end of a storage of one entry
  (`C144_twice_refuted`); the product of the result with 1 loses everything but the scalar term (`C144_degree_refuted`).
- The class of the result is that of the multiplier, the implementation that of the argument: `FreeTensor` and
  `ShuffleTensor` mixed give an object whose virtual functions are those of another class (`C144_kind_refuted`).
- A dense multiplier without storage is read (`C144_empty_refuted`).
- Tensors of different contexts are accepted: the result is labelled with the context of the multiplier
  (`C144_context_refuted`).  Another scalar type and an argument that was never set are undefined
  (`C144_scalars_refuted`, `C144_unset_refuted`).
- The test in the repository uses two dense free tensors of width 2 and depth 2.

### Keyed scalar arrays (C145)

- The copy constructor copies keys only if the original owns them: a copy of an array over keys of the user has none
  (`C145_copy_refuted`).
- `allocate_keys` frees what `p_keys` points to without looking at `m_owns_keys` (`C145_user_freed_refuted`), and frees
  before it checks the number, so that the keys are freed again later (`C145_twice_refuted`).
- `copy_or_move` of an array that does not own its keys writes past the end of an array of no keys, and without keys
  reads from a null pointer (`C145_copy_or_move_refuted`, `C145_copy_or_move_null_refuted`).
- Assignment by moving leaves `m_owns_keys` of the source set (`C145_moved_refuted`); assigning an empty array keeps the
  size (`C145_empty_refuted`).
- `keys()` is null for keys that are not owned although `has_keys()` holds (`C145_write_refuted`).
- Not modelled: `load`, `save`, `convert_copy` into a keyed array.

### Streams of rows (C146)

- `KeyScalarStream::push_back` without keys does not record that the row has none once rows with keys exist: the next
  row's keys belong to it, and the last row is read out of bounds (`C146_keys_refuted`).
- `operator[]` and `col_count` check inside `noexcept` functions: a row beyond the end terminates the program
  (`C146_range_refuted`).
- `ScalarStream(base, shape)` takes the array by value and keeps slices of it: rows of an array that owns its memory
  dangle (`C146_dangling_refuted`); arrays of constants are refused because the slice is a mutable one
  (`C146_const_refuted`); numbers of the shape after the second are ignored (`C146_third_refuted`).

### Counted pointers in threads (C147)

- `RefCountBase` has a member `std::atomic_size_t m_ref_count` without initialiser; before C++20 (the project sets
  `CMAKE_CXX_STANDARD 17`) it is indeterminate.  With any other word than 0 the object leaks or is destroyed early
  (`C147_leak_refuted`, `C147_early_refuted`).
- Modelled: the orders of the read-modify-writes (release sequences are continued by relaxed ones).  Trusted: that the
  views represent happens-before; copying a pointer of another thread is assumed to be free of races on the pointer
  itself, which is the user's duty; fewer than 2^64 pointers at once.

### Batches in roughpy.compute (C148)

- The last stride is passed to iterators whose `operator+` ignores it, so the fragments of the levels are found as if the
  rows were contiguous: `x[::2]` gives wrong results (`C148_strided_refuted`), `x[::-1]` reads outside the array
  (`C148_negative_stride_refuted`).
- The length of the last dimension is never compared with the basis: short rows are read and written past their end
  (`C148_short_rows_refuted`).
- Writability is not checked (`C148_read_only_refuted`); nor is overlap (`C148_alias_refuted`): `ft_fma(a, b, a)` is
  wrong.
- Byte order and alignment are not checked either; not modelled.  Neither are the conversions of `degree_begin` (type and
  strides unchecked), the reference counts and the Python wrappers' handling of depths (C30).

### C149: conversions between number types

* `is_always_exact` of integers (`conversion_helpers.h:30-31`) has the comparison of sizes the wrong way round: narrowing to a
  smaller type of the same signedness is always exact, so that 300 becomes the `int8` 44 in an exact conversion, and widening is
  not exact.
* The range check from floating-point to integer (`:121-129`) compares with the smallest *positive* number and in the wrong
  direction: no `double` from 1 up converts to `int64` or `uint64`, no `float` to `int32`, `uint32`, `int64`, `uint64`.  Smaller
  integer types have no range check, and the cast of a number out of range is undefined.
* From `double` to `float` the destination is written before the conversion is refused.
* Integers above `2^53` are refused by an exact conversion to `double` even if they are numbers of the type.
* `convert_from` finds the conversion in the opposite direction for every pair of types; `convert_to` does for `int8`
  (`conversion_impl.h:64-98`), and labels the types the other way round.

### C150: values of run-time type

* Assignment of another type uses `convert_from`: the source is read as the type of the destination, the result written as that
  of the source.  An `int32` that is assigned the `int8` -1 holds 255; an object that is not in a `Value` is read beyond its end.
* The common type of two types is, with the exactness as above, the smaller one: `int64` 300000 plus `int16` 1 is the `int16`
  -27679; `int16` 44 equals `int64` 65580.  `int8` 5 plus a `double` is the `double`.
* `value_arithmetic_divide` (`value_arithmetic.cpp:120-123`) divides the converted divisor by itself and leaves the operand.
* Move assignment between types looks the conversion up and does not apply it (`value.cpp:217-222`).
* `Value(type, data)` passes on the type after it was moved from, and so throws whenever there is data (`value.cpp:129-137`); not
  modelled.
* A comparison in the common type uses the comparison of the left type (`value_compare.cpp:30-31`).

### C151: values on the heap

* `ValueStorage::operator=(ValueStorage&&)` (`values.h:228-233`) leaves the pointer in the source, and `Value::operator=(Value&&)`
  (`value.cpp:206-214`) neither frees the old object nor clears the source: the object is freed twice, the old one never.
* After a move to an empty value the source has no type but still the pointer; assigned again, it shares its object with the
  destination.

### C152: streams over sound files

* The first frame is skipped also for channels of increments (`sound_file_data_source.cpp:86`): its sample is in no answer
  (`C152_first_refuted`).
* A cell of the stream that reaches beyond the end of the file throws. With a resolution coarser than the length of the file the
  query over the whole support throws (`C152_short_refuted`).
* Only the first coordinate of a lead-lag channel is written, the other is always zero (`C152_leadlag_refuted`).
* `include_time` takes the place of a channel: the last channel of the file is lost and the time coordinate is always zero
  (`C152_time_refuted`).
* `from_uri(resolution=0)` is ignored (`C152_resolution_refuted`).
* A given final schema with more channels than the file reads out of bounds; rows are cut with the width of the metadata and the
  size of its scalar type although they were written with those of the schema and the context. Excluded by `PlainFor` and by the
  simplification that there is one scalar type.

### C153: arithmetic of polynomial values

* `Monomial::operator*=` (`monomial.cpp:37-42`), `poly_add_inplace` and `poly_sub_inplace` (`polynomial.cpp:27-61`) keep
  `lend = end()` of a flat map while they insert and erase.  With two new keys the behaviour is undefined
  (`C153_monomial_undefined`, `C153_sum_undefined`): so are `0 + p` for every `p` of two terms and `1 * (x1 x2)`.
* If the vector has room, terms are lost in sums and overwritten in differences (`C153_lost_term_refuted`,
  `C153_overwritten_term_refuted`).
* `p -= p` erases from the range it iterates over (`C153_self_refuted`).

### C154: equality and order of polynomial values

* `<=` of monomials is `lexicographical_compare` with `<=` on the elements (`monomial.cpp:91-107`), which is not the order of `<`;
  `>` is its negation (`C154_le_refuted`).
* The number 0 converts to a polynomial with one term whose coefficient is zero (`C154_zero_refuted`); arithmetic afterwards can
  also not assume a normal form.
* Fractions are stored as given: 2/4 and 1/2 are different coefficients (`C154_fraction_refuted`).

### C155: integers and fractions of arbitrary precision

* The sum of fractions adds the left operand to itself (`rational_arithmetic.cpp:25`): `a + b` is `2a` (`C155_sum_refuted`).
* `==` of integers is `!=` (`integer_comparison.cpp:29`; `C155_integer_equal_refuted`).
* `from_rational(n, 1)` refuses every negative integer (`integer_number.cpp:71-76` changes both signs if the *numerator* is
  negative; `C155_negative_refuted`); for fractions the result is not reduced (`C155_common_factor_refuted`).
* Powers of fractions with exponents below -1 cast the exponent without changing its sign (`rational_number.cpp:83`) and abort
  (`C155_power_refuted`).  Powers of integers are announced and throw (`C155_integer_power_refuted`).
* Division of fractions by zero aborts (`C155_division_by_zero_refuted`); so does reading "1/0" (`C155_parse_refuted`).
* `ComparisonTrait::compare_equal` is false for all valid operands (`comparison_trait.cpp:23`; `C155_trait_equal_refuted`);
  `NumberTrait::imaginary` is `real` (`number_trait.cpp:131`), and `NumberTrait::log` is `exp` (`:187`), `NumberTrait::sqrt(dst, src)`
  is `abs` (`:79`); the last two are not modelled.
* The tables of conversions of these types are empty: the files that fill them do not include the conversion helpers.  The helpers
  (`multiprecision_types/conversion_helpers.h`) would not compile for floating-point destinations; they are not modelled.

### C156: arrays of values of run-time type

* `Array::reserve` copies with `uninit = false` into new memory (`array.cpp:101`), so growing an array of integers, fractions, floating
  point numbers of arbitrary precision or polynomials is undefined as soon as it has an element (`C156_grow_refuted`).  The old
  elements would not be destroyed either.
* Copying an array without a type follows a null pointer (`C156_copy_empty_refuted`).
* Both assignments overwrite the pointer to the old memory without freeing it (`C156_assign_leaks_refuted`); self-assignment reads
  uninitialised memory (`C156_self_assign_refuted`), moving to itself loses the elements (`C156_self_move_refuted`).
* `MPFloatType::copy_or_fill` with no source and `uninit = false` increments the pointer before it writes (`float_type.cpp:95`), so
  it skips the first element and writes behind the last.  No array calls it so (`NumberTrait` does, `number_trait.cpp:28`); not modelled.

### C157: polynomials as text

* A term with two indeterminates is shown with a space between them, which the reader does not accept: `{ 3(x1 x2) }` is read as the
  constant 3 (`C157_round_trip_refuted`).
* Everything that does not match is skipped: text without digits is read as zero (`C157_malformed_refuted`), `x1` as the constant 1
  (`C157_bare_indeterminate_refuted`), `0(x1)` too (`C157_zero_refuted`), and a sign before a space is ignored
  (`C157_separated_sign_refuted`).
* Repeated monomials and repeated indeterminates are dropped, not added (`C157_repeated_term_refuted`, `C157_repeated_power_refuted`).
* Fractions are not reduced (`C157_unreduced_refuted`); coefficients beyond 64 bits are shown but refused (`C157_large_refuted`).
* A decimal number beyond the range of doubles makes `std::stod` throw `std::out_of_range` through a `noexcept` function
  (`C157_out_of_range_refuted`).

### C158: numpy arrays of elements

* `write_entry_to_array` has an empty body (`numpy.cpp:314-319`), so the array of every sparse element is zero, or `None` for fractions and
  polynomials (`C158_sparse_ignored`, `C158_sparse_refuted`, `C158_sparse_example`).
* Dense elements with fractions or polynomials that store fewer coefficients than the basis has keys are filled up with `None`
  (`C158_padding_refuted`).
* An element that was never set makes the conversion read through a null pointer (`C158_unset_refuted`); coefficient types without an array
  type throw (`C158_types_refuted`).
* Although the code says that full dense data is borrowed, `py::array` without a base object copies it, so `copy` makes no difference.

### C159: iterating over tensor keys

* `__iter__` of `TensorKeyIterator` returns the iterator by value (`tensor_key_iterator.cpp:85`), so a loop runs over a copy and the iterator
  is never advanced (`C159_loop_refuted`).
* `TensorBasis.key_to_index` is declared for a `LieKey` (`basis.cpp:72-79`) and refuses every tensor key; `parents` answers for key 0. They are
  the bindings of C124, not modelled again.

### C160: arithmetic written in Python

* `__truediv__` with an `rp.Scalar` is bound to `smul` (`setup_algebra_type.h:115`): `y / s` multiplies by `s`, for example `y / y[key]`
  (`C160_divide_refuted`, `C160_divide_example`); dividing by the scalar zero gives zero. `y / 2`, `y / 2.0` and `y /= s` divide.
* The operators of `Scalar` are registered without `py::is_operator()` (`scalars.cpp:167-175`), so `s * y` raises a `TypeError` before
  `__rmul__` of the element is asked (`C160_scalar_left_refuted`).
* `Scalar` has no `__sub__` for scalars, and division is registered as `__div__`, which Python 3 never calls: `s - t`, `s / t`, `s / 2` and
  `2 / s` raise (`C160_scalar_refuted`).
* A `Fraction` and an `int` of more than 64 bits are rounded to a `double` even if the coefficients are rational
  (`C160_fraction_refuted`, `C160_large_refuted`).
* `x *= 2.0`, `x *= 2`, `x /= 2.0` and `x /= 2` change the object and then name a copy of it, since the lambdas return by value
  (`setup_algebra_type.h:173-204`, `C160_identity_refuted`); with an element or a scalar the object stays (`C160_in_place_partial`).

### C161: constructors of elements

* The argument `keys` is removed from the keyword arguments and not used (`kwargs_to_vector_construction.cpp:72-78`), although the
  documentation says that it goes along with the data (`C161_keys_refuted`).
* Without a width, the width is the number of entries less one (tensors) or the number of entries (Lie elements), also for data with keys:
  `FreeTensor({1: x, 2: y})` has width 1, `FreeTensor({2: x})` is refused and `Lie({4: x})` has width 1 (`C161_width_refuted`).
* Lie elements from data with keys are dense by default, tensors are sparse (`C161_storage_refuted`); the code that would tell is commented
  out (`lie.cpp:122-128`).
* `FreeTensor((1, 5.0))` is one coefficient at index 1, `FreeTensor([1, 5.0])` two coefficients (`C161_pair_refuted`).

### C162: memory on the host device

* `allocate_memory` makes its holder with `safe_holder(alignment, bytes)` (`host_device.cpp:55`), but `ScopedSafePtr` takes the size first
  (`alloc.h:149`). The block has as many bytes as the alignment asked for (at least 16) and is aligned to the size of the data: memory for four
  doubles is written past its end, memory for three doubles has no block and no error is reported (`C162_allocate_refuted`,
  `C162_allocate_short`, `C162_allocate_null`). Only memory of at most 16 bytes is sound (`C162_allocate_partial`). `Memory::to` and `to_host`
  inherit this (`C162_to_refuted`).
* `map_memory` and `map_const_memory` add offset and count without looking for overflow (`host_address_memory.cpp:80`, `:96`), so a count near
  `2^64` gives a view past the end (`C162_view_refuted`).
* Views ignore the mode: read only memory can be mapped for writing, write only memory for reading (`C162_mode_refuted`).
* Not modelled: `copy_memory` between different devices; there it calls the other device and then copies again itself, and two such devices
  would call each other without end (`host_device.cpp:79-88`).

### C163: scratch arrays

* `resize` of an inline array to a size that still fits does not change the size (`cache_array.hpp:95-100`, `C163_size_refuted`).
* `resize` of an array on the heap to at most `InlineSize` only changes the size, after which the array counts as inline: the block is never
  freed, and growing again replaces the pointer (`C163_leak_refuted`).
* The destructor gives the block back with `size_` instead of `alloc_` (`cache_array.hpp:54`, `C163_free_refuted`).
* No code in the library calls `resize`, so the part that holds (`C163_partial`) covers every use there is.

### C164: `==` and `!=` in Python

* `__eq__` and `__ne__` of `Scalar` are registered without `py::is_operator()` (`scalars.cpp:215-245`): a scalar compared with `None`, a string
  or an element raises a `TypeError`, also with the scalar on the right, so `s in [None, s]` raises (`C164_raises_refuted`).
* Fractions and integers of more than 64 bits are rounded to a `double` before they are compared (`C164_fraction_refuted`,
  `C164_large_refuted`).
* The overloads with the scalar second are never chosen, since the first argument of the method is always the scalar.

### C165: an item is a view of its iterator

`AlgebraIterator::operator*` gives an item that shares the iterator's interface instead of copying it, so
the item changes when the iterator goes on (`algebra_iterator.h:188-197`). In Python, `list(tensor)` gives
items that all stand behind the last entry, and `key()` or `value()` on any of them is undefined behaviour
(`C165_items_refuted`). An item also does not keep the element alive: only the iterator does
(`setup_algebra_type.h:106`), so `next(iter(a * b)).value()` reads freed memory
(`C165_temporary_refuted`). Two null iterators do not compare equal (`algebra_iterator.h:207-213`), so
iterating over an element without storage raises `RuntimeError` instead of ending at once
(`C165_no_storage_refuted`). A loop that reads each item as it comes is right (`C165_loop_partial`).

pybind11's `make_iterator` is modelled from its documented behaviour, its source is not in /repo.

### C166: masks and groups of a kernel launch

`Kernel::construct_work_mask` clears one bit too many in the last word (`kernel.cpp:140` shifts by
`underflow + 1`), so the mask has one bit fewer than there are work items, and for sizes that are one more
than a multiple of 64 it shifts by the width of the word, which is undefined behaviour
(`C166_mask_refuted`, for every size). `underflow_of_groups` says a whole group is left over when the work
fills the groups (`kernel_launch_params.cpp:101-103`, `C166_left_over_refuted`). `num_work_groups` cuts to
32 bits and the rounded division wraps around, and without a group size there are no groups
(`C166_groups_refuted`). Nothing in /repo calls `construct_work_mask`, `num_work_groups` or
`underflow_of_groups`, but all three are public.

### C167: scalar types by name

`parse_id_to_type_info` looks at `id[2]` instead of `id[1]` (`scalar_type.cpp:181`), so no name finds
bfloat16 and a name of `b` and one character reads behind its end (`C167_bfloat_refuted`,
`C167_undefined_refuted`). Text after the number is ignored, bits are rounded down to bytes and bytes are
cut to 8 bits, so `f64x`, `f71` and `f2112` find double (`C167_wrong_name_refuted`). `next_power_2` on 8-bit
numbers never ends for more than 128 (`helpers.hpp:105-112`), which `f1040` reaches
(`C167_undefined_refuted`). The check in `signature_arguments.cpp:200` is inverted: a string `dtype` is
refused if it names a type and dereferences an empty `optional` if not (`C167_signature_refuted`, for every
string).
