# Formal model of SciTools/biggus in Lean 4 — design

Source modelled: `/repo/biggus/_init.py` (v0.15.0), `/repo/biggus/experimental/key_grouper.py` and
`/repo/biggus/experimental/dask_engine.py`. Nothing was executed; the tie between model and code is the reading
recorded in the comment of every definition (file and lines).

## 1. Layout

* `Verif/Py` – Python `slice.indices`, `range`, sequence indexing; exceptions as values (`Res = Except PyErr`).
* `Verif/Spec` – the specification side: an n-dimensional array as (shape, index → element), orthogonal NumPy
  indexing of it, concatenation, transposition, broadcasting, aggregation along an axis, schedules, groupings. No
  biggus code is used here, except where a specification must speak of the model's objects (the denotation
  `Arr.den` of an expression, the grammar `Arr.Built` of what the public API can build, the decidable guards).
* `Verif/Model` – biggus, function by function (see 3).
* `Verif/Proofs` – helper lemmas.
* `Verif/Props` – the theorems named in MANIFEST.json, each with a concrete instance of its hypotheses and, where the
  code violates the property, the proved negation on a concrete witness.

* `Verif/Check` – the expectations of the project's own test-suite (`/repo/biggus/tests`), transcribed row by row and evaluated in the
  model by the kernel: evidence that the model is the program, not proofs of properties.

## 2. How the properties are proved (the plan, kept as written before the proofs)

| id | what is modelled | how it is proved |
|----|------------------|------------------|
| C01 | `_full_keys` loop | induction over the two-ended pop loop; equality with a one-line spec |
| C02 | `_sliced_shape` | induction over keys |
| C03 | adapter key composition | per-axis composition lemma, induction over key list, then over history |
| C04 | `_apply_keys` + model of NumPy mixed indexing | case analysis; negation witness for int/slice/tuple mixes |
| C05 | adapter bounds checks | per-axis iff |
| C06 | all classes in one inductive type | structural induction (refinement to a denotation) |
| C07–C15 | the individual classes | node lemmas of C06, plus class-specific statements |
| C16–C18 | `_all_slices_inner`, `chunk_index_gen` | list induction; permutation/coverage counting |
| C19, C32 | `save`, producer reads | fold over chunks with a write/read log |
| C20–C23 | streams handlers | fold invariants; Welford recurrence over a field; negation witnesses for min/max/std |
| C24, C29 | stream semantics | induction over expression; chunk-sequence alignment |
| C25–C27 | threads + bounded queues | confluence (diamond) + history invariant + progress |
| C28 | `_make_node` cache | invariant on cache; negation witness |
| C30 | `_Aggregation._getitem_full_keys` | node lemma |
| C31, C33, C34, C35 | small functions | direct |
| C36, C37 | key grouper | loop invariant |
| C38 | dask task construction | the task graph as a sequential program, compared with the threaded stream |
| C39 | dtype bookkeeping | structural induction; negation witness for Python scalars |
| C40 | operator table | finite table |
| C41–C43 | the whole expression type | corollaries of the refinement: any history of simple keys, direct = engine, two limits |
| C44–C46, C72, C73 | a heap of `ArrayStack` objects and object arrays, lazy expressions of every class over them, programs over it | simulation of the heap operations (indexing with any keys, evaluation, constructors) by the immutable expressions, plus a frame lemma (what a later program may touch) and monotonicity of the constructors |
| C47–C49 | masked handlers, one-chunk data | fold invariants; lifted to arrays by the stream theorems |
| C50, C51, C62, C63 | dtype function, read log, operator table, constructors | structural induction / direct |
| C52, C53 | instrumented evaluation, `save` | counting over the chunk partition |
| C54 | `size` | direct |
| C55, C56, C61 | threads, queues, node cache | confluence, progress measure, history invariant |
| C67 | sum/mean accumulators of integer dtype | fold invariant modulo 2^bits; lifted to arrays by the stream theorems |
| C68 | count accumulators, int32 result | fold invariant modulo 2^32; lifted to arrays by the stream theorems |
| C69 | dtype kinds through bootstrap / process_chunk / finalise | case analysis per chunk, induction over the chunks; composed with the value theorems |
| C70 | `.ndarray()` with every engine call replaced by any complete execution of its threads, recursively (relation `Arr.Runs`) | induction on the nesting, C27/C28 for each call, C06 for the histories; executions shown to exist |
| C71 | the loop of `save` reading from the current content of the target | invariant over the blocks: written blocks hold the result, the others the old content; blocks are disjoint (C18) |
| C74 | what threads hold and queues carry in the transition system of C25 | history invariant strengthened to "every token on a queue was sent by its source"; per-thread invariant; chunk sizes from C17; induction over `_make_node` |
| C75, C76 | indexing of every class with one integer out of range; Python's sequence iteration as an inductive relation; nested loops by recursion on the depth | structural induction giving IndexError exactly; C06 for the rows; `Arr.firm`, `Arr.deep` are kept by indexing with an integer |
| C77 | both evaluation modes of one expression | a relation between the elements of two modes, kept at every node (logical relation, structural induction); masked handlers on unmasked columns |
| C78 | `Arr.getitem` of every class; induction over the expression, following the offending key through each class's rewriting of the keys (remapping, folding of new axes, broadcast loop, transposition, stack subset, tile groups) down to the check | `C78_never_accepted`, `C78_too_many_keys` |
| C79 | floats as exact numbers plus two infinities and NaN (`Fl`, Spec/Floats); the plain handlers over them (Model/Floats), the generic evaluation machinery instantiated with them (`floatMode`) | `C79_sum`, `C79_mean`, `C79_std_*` by induction over the column; arrays by the same lifting as C20 |
| C22, C23 (exact) | Spec/Pieces: in which pieces a column is read, from the shape and the limit alone; every aggregation of every expression is the handler run over these pieces (induction over the expression and over the chunk grid), hence exact results and an iff for sources |
| C80 | Model/Rounding: sum and mean handlers with an arbitrary rounding function `fl` after every operation and an arbitrary order of additions in `np.sum`; the fold over the chunks is itself an order of additions (`SumsTo`, induction), whose error is bounded by induction over the additions; lifted to all arrays by the exact piece theorem. Instance: binary numbers of p digits |
| C81 | Model/Rounding: Welford's loop with `fl` after every operation; invariant over the loop: `q` is 0 while all values are the same (then `a` is that value), positive as soon as two differ; the rounded counts stay at least 2; lifted to all arrays by the exact piece theorem. Instance: binary numbers of 53 digits and the rounded real square root |
| C82 | the rounded loop is compared with the exact one (whose result is the two-pass variance, C23) step by step: after k values the running mean is off by at most M((1+u)^(4(k-1))-1), the sum of squares by 4M²(k-1)((1+u)^(8(k-1))-1); induction over the values; lifted to all arrays |
| C83 | the loop of an in-place `save` as a run that may stop anywhere (`saveIntoRun`) | induction over the blocks: pointwise expressions read only what the block overwrites |
| C84 | `fill_value` as announced (`Arr.fillValue`) and as set on the result of `masked_array()` (`Arr.setFill`), NumPy's propagation of fill values through views, `astype`, `masked_equal` being part of the model | induction over expressions, invariant "fill value `f` throughout"; witnesses where the code forgets or changes it |
| C85 | a relation `Arr.Program` between biggus arrays and NumPy arrays, one constructor per public operation and its NumPy counterpart | induction over the program; invariant: well formed, evaluable, streamable, indexable, yields the NumPy array |
| C86 | `Model/Racing`: the accesses of `ArrayStack.ndarray` / `ProducerNode.run` / `save` to the object array, with arbitrary assignments by other threads before each | the loop equals the stack loop on the items held at each access (`raceLoop_eq`); chunks stored from different arrays (`store_mixed`), tiling (C16) |
| C87 | `Model/Changing`: `ProducerNode.run` over an array whose contents differ from chunk to chunk (and, for sources, from element to element); one reader for each object | each reader delivers chunks of one array that has each element from its chunk (`changing_reader_ok`, with the tiling C16); streams of expressions over such readers (`over_stream`) |
| C64 | `save`'s loop as a run with crash points and failing reads | induction over the pieces |
| C65 | `__deepcopy__` with its memo | the memo as a renaming; invariant over the copy |
| C57–C60 | transposition, stacks, mosaics, new axes, broadcasts, ortho adapters | node lemmas of the refinement |

The central argument is a refinement: `Arr.den` (Spec/Den) gives every expression the array it should stand for;
`getitem_ok` shows that `a[keys]` of the model denotes the orthogonal indexing of what `a` denotes, `eval_ok` and
`engine_ok` that evaluation (direct or through chunks and handlers) returns what is denoted. `Arr.Built` is the grammar
of the public API; `Arr.Built.fine` shows that everything built satisfies the invariants those theorems need. Most
class-by-class statements (C07–C15, C19, C20–C24, C30) are corollaries. The threaded engine is a separate transition
system (Model/Engine) whose terminated runs are proved equal to the sequential stream program used by `eval`
(Props/Engine, Props/Groups), so the two halves compose.

## 3. Trusted base

1. **Lean 4.33.0's kernel**, and Mathlib's definitions used in statements (`Field`, `LinearOrder`, `List.Perm`, …).
2. **Axioms**: every property theorem depends on at most `propext`, `Classical.choice` and `Quot.sound` (checked with
   `#print axioms` on each). No axioms of our own, no `native_decide`, no `bv_decide`. Concrete examples use
   `decide +kernel`, which is evaluation by the kernel.
3. **The reading of the code**: the definitions in `Verif/Model`. Comments cite the lines. As the code cannot be run here, the one available
   set of observations of it is its test-suite: `Verif/Check/RepoTests*` evaluates the model on some 250 of the suite's cases
   (indexing tables of every class, constructor errors, chunk keys, axis arguments, aggregations plain and masked, `mdtol`, element-wise
   operations, operators, key grouping, fill values, sizes, `save`). All agree. Tests of `repr`, warnings, docstrings and dtype promotion
   and of mocks are left out.
4. **NumPy**, as trusted functions in `Model/NumPy`, `Spec/NDArray` and `Spec/Combinators`: basic and advanced indexing (`npFancy`, including
   the rule that a scalar and an index array separated by a slice move the indexed dimension to the front), `np.take`,
   assignment through an index, transposition, ufunc broadcasting, stride tricks, NumPy's binary operators with a foreign right operand (`__array_priority__`), `np.ma` arithmetic on
   `Option`-valued elements, `np.product` in int64 (wraps); in-place operations cast with `same_kind`, `np.sum` of booleans is an integer,
   `ma.sum` of an all-masked vector is `ma.masked` (float64).

### What is modelled

| model file | code |
|---|---|
| Model/Keys | `_full_keys`, `_sliced_shape`, key normalisation, `_groups_of` (3198–3285, 1588–1606) |
| Model/NumPy | the NumPy operations used |
| Model/Chunks | `ProducerNode.chunk_index_gen`, `_all_slices`, `_all_slices_inner` (138–204, 2105–2160) |
| Model/Handlers | the streams handlers of count, min, max, sum, mean, std, var, plain and masked (2304–2609) |
| Model/Arrays | all `Array` classes and their `_getitem_full_keys` / `__getitem__` (508–1716, 1719–2079, 2622–2676, 2936–3049), as one inductive type `Arr` |
| Model/Eval | `ndarray()` / `masked_array()`, producers, handlers, `NdarrayNode`, the engine as a sequential program (85–446, 2227–2301) |
| Model/Stacks | `multidim_array_stack`, broadcasting helpers, `save`'s loop (1839–1908, 895–980, 2163–2224) |
| Model/Engine | nodes, threads, bounded queues, QUEUE_ABORT/QUEUE_FINISHED as a transition system (96–335) |
| Model/Group | `_make_node`/`_evaluate`: the node cache keyed by object identity, several results at once (338–446) |
| Model/Misc | `_normalise_axis`, `size`, `nbytes`, operators (487, 581–665, 2679, 3310–3344) |
| Model/Meta | dtypes, fill values (482, 500, 1745–1790, 1945–1990) |
| Model/Ctors | constructor checks (729–760, 865–930, 1609–1650, 1719–1760, 1912–1960) |
| Model/Grouper | `key_grouper.py`, with the caller's mutable lists |
| Model/Reads | the same evaluation programs instrumented with a log of requests to the data sources |
| Model/Mutable | `ArrayStack.__setitem__`, `__deepcopy__`, aliasing of the object array by the constructor, slicing (which copies the object array), programs over them (1719–1836); construction, indexing and evaluation of every other class over mutable stacks |
| Model/Ints | the accumulators of sum and mean in the integer dtype of the data (2394–2488) |
| Model/Casts | the dtype kinds met by the in-place operations of the handlers (2304–2609) |
| Model/Threads | `ndarray`/`masked_array` with the group calls of the engine as in the code (2662–2668, 3028–3038) |
| Model/InPlace | `save` to an array that the source reads (2163–2196) |
| Model/Dask | `DaskEngine`'s graph construction and its execution |

### Simplifications (also stated at the definitions)

* **Exact arithmetic**: elements range over an arbitrary (ordered) field; floating-point rounding is modelled only for sum, mean, std and var (C80-C82, Model/Rounding, without overflow and underflow; `np.sum` of a chunk adds in an order that depends only on the values of the column); NaN, infinities and division by zero only in Model/Floats (C79);
  overflow of integer data only in Model/Ints (sum and mean). `np.sqrt` and dtype casts are arbitrary functions (parameters).
* A masked element is `none`; the distinction between `nomask` and an all-false mask is modelled only where the code
  depends on it (C21).
* A source is a total function on indices with a shape; it does not change, and reading it does not fail except for
  invalid keys. Model/Engine, in contrast, lets any node fail at any chunk.
* Dictionaries are association lists in insertion order.
* `Arr.eval` takes a recursion level, standing for Python's recursion limit: an engine evaluation nested inside a
  producer uses one level. The theorems hold for every level sufficient for the expression, and sufficient levels exist.
* In Model/Eval evaluating an element-wise expression evaluates its operands one after the other and the engine is a sequential
  program, whereas the code evaluates the operands in one threaded group (`engine.ndarrays(*operands)`). Model/Group models the
  group, Model/Threads the evaluation that uses it at every level; C28 and C70 relate them. In Model/Threads a producer of one
  call evaluates equal pieces with equal results (each call has its own choice), and a call that hangs counts as an error.
* Negative axes given to `transpose` are represented by an out-of-range axis; C35 covers what is rejected.
* Model/Mutable: assignment to a stack of a 0-dimensional object array is left out, dtypes and fill values too; objects created while one chunk is computed are not kept in the heap (nobody can refer to them);
  `np.array([...], dtype='O')` keeps biggus arrays as objects.
* Stable sort is `insertionSort`; threads' wake-up order and queue fairness are arbitrary schedules.
* Memory (C74): `Obj.stored` is a ghost field with the number of elements of a handler's partial result; final results, the reading of a chunk and Python's lingering local variables are not counted.
* C86: an access of the object array (`self._stack[index]`, `np.array(self._stack[keys])`) is atomic (one NumPy call under the GIL); the items are immutable expressions; other threads only assign items.
* C86, C87: engine evaluations in which every array object is asked for in one order (otherwise C28). C87: copying one element is atomic; shapes, dtypes and fill values of sources do not change; expressions over producers (views, stacks, mosaics, sources), aggregations and element-wise operations.
* Not modelled: `OrthoArrayAdapter`'s wrapping of real netCDF variables beyond "indexes orthogonally",
  `export_netcdf`-like helpers, logging, `repr`/`str`, `init`/engine selection,
  garbage collection, memory use beyond C74.

## 4. Where the code violates a property

For these the property is kept as stated, the theorem proved is named `_partial` or restricted by explicit hypotheses,
and the failure is proved on a concrete witness of the model:

| property | behaviour of the code | witness |
|---|---|---|
| C03 | a stored boolean mask indexed again selects wrong data | `C03_stored_mask_wrong` |
| C03, C06, C39 | a single masked element is read by `ndarray()` as 0.0 instead of the fill value, as float64 | `C03_masked_scalar_wrong`, `C39_masked_scalar_wrong` |
| C04 | `A[0, :, (1, 2)]` of a NumPy source evaluates transposed | `C04_scalar_slice_tuple_transposed` |
| C07 | `ConstantArray` accepts out-of-range keys | `C07_out_of_range_accepted` |
| C07 | a list key on a constant array is rejected (`_sliced_shape` knows integers, slices, tuples and 1-d arrays only) | `C07_list_key_rejected` |
| C08 | a slice or tuple selecting 0 or several elements of a new axis, after an integer key, stretches the wrong axis (`a[newaxis, :, newaxis][0, :, 0:0]`) | `C08_new_axis_after_integer_wrong`, `C08_wrong_axis_cut`; exactly when: `C08_right_iff` |
| C09 | broadcast of a broadcast with leading dimensions misaligned; out-of-range scalar on a leading dimension accepted | `C09_nested_leading_misaligned`, `C09_leading_out_of_range_accepted` |
| C10 | empty leading dimension, or operands with leading broadcast dimensions, rejected | `C10_empty_leading_dimension_rejected`, `C10_leading_broadcast_rejected`, `C10_leading_broadcast_misaligned` |
| C11, C35 | `TransposedArray` accepts axes that are no permutation | `C11_non_permutation_accepted`, `C35_transposed_accepts_non_permutation` |
| C12 | two index arrays on stack dimensions; one index array separated by a slice from an integer; empty selections | `C12_two_index_arrays_fail`, `C12_exact` |
| C14 | mosaic: negative integers, negative steps, empty slices, masks; tiles that are NumPy sources with index arrays | `C14_negative_integer_wrong`, … |
| C15 | chained `astype` casts once | `C15_chained_astype_casts_once` |
| C21 | masked sum over an axis ≥ 1 of data without a mask raises | `C21_nomask_sum_raises` |
| C22 | min/max keep only the last chunk | `C22_min_wrong_for_two_chunks`, `C22_min_array_wrong` |
| C23 | std/var ignore leading chunks of length 1 | `C23_std_wrong_for_singleton_first_chunk` |
| C24 | operands chunked differently are combined chunk by chunk | `C24_mismatched_chunks_wrong` |
| C26 | an operand that sends fewer chunks ends an element-wise node; later failures of the other operand are overlooked | `C26_failure_overlooked` |
| C27 | shared sources: hang after a failure; deadlock at different paces | `C27_failure_with_shared_source_hangs`, `C27_different_paces_deadlock` |
| C27, C28 | node cache ignores the iteration order | `C28_conflicting_orders_wrong`, `C27_conflicting_orders_hang` |
| C31 | min/max/sum raise AssertionError; one-shot iterators refused | `C31_min_max_sum_assert`, `C31_one_shot_iterator_refused` |
| C32 | chunked broadcasts read their array once per chunk; NumPy sources indexed in two dimensions and chunked read the whole source for every chunk; so does `save` of an aggregation of a NumPy source | `C32_broadcast_reads_again`, `C32_numpy_slice_reads_too_much`, `C32_save_numpy_aggregation_reads_too_much` |
| C67 | the mean of integers is accumulated in the dtype of the data and overflows; masked counts too; unsigned masked means raise | `C67_mean_overflows`, `C67_masked_mean_overflows`, `C67_unsigned_masked_mean_raises` |
| C68 | counts are `int32`: 2^31 elements are counted as -2^31 | `C68_count_overflows` |
| C69 | sum and mean of booleans, masked mean of unsigned integers, masked mean of an integer vector with an all-masked chunk: TypeError | `C69_refused` |
| C70 (restriction on sharing) | `(sum(x, 0) + sum(x, 1)).ndarray()` of one `x` read in several chunks is wrong | `C70_conflicting_orders_wrong` |
| C71 (restriction to pointwise expressions) | reversing an array, or subtracting its mean, in place by `save` in several blocks | `C71_other_elements_wrong` |
| C03 | a slice with step 0 is accepted, then the array has no shape | `C03_zero_step_accepted` |
| C09 | broadcasts refuse tuples on stretched axes, index arrays of two or more, empty leading slices | `C09_keys_refused` |
| C11 | index array, slice and integer on a transposed NumPy source: transposed values | `C11_numpy_source_transposed` |
| C14 | tiles that are broadcasts; empty tiles; negative indices in tuples | `C14_broadcast_tiles_fail`, `C14_empty_mosaic_fails`, `C14_negative_index_in_tuple_wrong` |
| C30 | two tuples over a stack; min/max cut into chunks | `C30_stack_source_fails`, `C30_min_differs` |
| C33 | `nbytes` wraps at 2^63 | `C33_nbytes_overflow` |
| C34 | new axes and broadcasts do not forward the fill value | `C34_containers_forget` |
| C35 | empty stack / mosaic raises IndexError; re-stretching a stretched axis accepted | `C35_empty_stack`, `C35_mosaic_index_error`, `C35_broadcast_twice_accepted` |
| C36 | more than 9999 slices: RuntimeError | `C36_gives_up` |
| C37 | `group_keys` removes keys from its arguments | `C37_same_list_twice` |
| C38 | operands cut in different chunks: AttributeError (`uuid.uuid()`); ≥ 10000 chunks along a dimension: RuntimeError | `C38_mismatched_chunks_fail`, `C38_many_chunks_fail` |
| C39 | Python-number operands: declared dtype differs from evaluated dtype | `C39_python_number_wrong` |
| C40 | with an ndarray on the left of a masked stack, mosaic, aggregation or element-wise result, NumPy computes at once from filled data: the mask is lost | `C40_numpy_left_loses_mask` |
| C45 | assigning an item of another shape is accepted; two stacks built on one object array change together; a stack can be assigned to itself and then cannot be evaluated | `C45_shape_not_checked`, `C45_object_array_shared`, `C45_self_assignment` |
| C74 | aggregating along an empty axis: an array without elements is one chunk whatever its shape, the aggregated chunk is unbounded | `C74_empty_axis_unbounded` |
| C75, C76 | constants and leading dimensions of broadcasts accept every integer: `list(biggus.zeros(3))` never ends; 0-dimensional arrays iterate to nothing; iteration after boolean indexing raises TypeError | `C76_constant_never_ends`, `C76_leading_never_ends`, `C76_zero_dim_empty`, `C76_mask_then_iterate_raises` |
| C77 | aggregating masked data: `ndarray()` counts and sums the fill values of masked elements | `C77_aggregated_masked_differs` |
| (C78) | a sequence on the axis of a mosaic with an index out of range alone in its tile is accepted and the index dropped: tiles of lengths 2, 2 and `m[(0, 9),]` gives one element | `C78_mosaic_sequence_accepted` |
| (C79) | `std`/`var` of data with an infinity: `std([1, inf])` is inf and `std([inf])`, `std([nan])` are 0, where NumPy gives NaN (the one-pass update squares the increment before the mean becomes NaN; a single value is never looked at) | `C79_std_wrong`, exact condition `C79_std_inf_exact` |
| (C84) | the transpose of a masked source, and the source with a new axis, announce the default fill value but evaluate to the source's; `masked_arrays([a])` always has the default one; indexing a stack of parts with different fill values changes it | `C84_views_wrong`, `C84_engine_forgets`, `C84_mixed_stack_changes` |
| (C86) | two items of a stack assigned during its evaluation: old item 0 with new item 1, never a state of the stack; the engine tears an item | `C86_two_assignments_mix`, `C86_engine_tears_items` |
| (C87) | two adapters over the same data that is written meanwhile: their difference is not 0 | `C87_two_objects_differ` |
| C05 | an array indexed with a boolean mask accepts no integer index any more (`TypeError`, also in range) | `C05_mask_violation` |
| (C65) | two stacks over one object array: a deep copy gives each its own | `C65_object_array_unshared` |
| C44 (the exception) | a slice of a broadcast (or of a sum with an array of more dimensions) can use the stack itself, while a slice of the stack uses copies: later assignments show up in the one and not in the other | `C44_broadcast_shares` |

Read but not turned into a theorem of its own: `_full_keys` with two Ellipsis (covered by the error characterisation of C01).

## 5. Per property: theorems

### C01 — Ellipsis and short keys expand like NumPy (proved)

all key tuples with at most one Ellipsis; success/IndexError characterisation for any number of ellipses

Theorems: `C01_full_keys_is_numpy_expansion`, `C01_ellipsis_stands_for_missing_dims`, `C01_full_keys_one_key_per_dimension`, `C01_full_keys_error_iff`.

### C02 — The shape announced for an indexed array is NumPy's shape (proved)

all shapes and keys for which orthogonal indexing is defined, except list keys (rejected by the code)

Theorems: `C02_sliced_shape_is_numpy_shape`, `C02_list_key_rejected`.

### C03 — Indexing an adapter repeatedly equals indexing the data repeatedly (partial)

any number of indexing steps with any keys except newaxis (C08); a stored boolean mask that is indexed again gives wrong data in the code (proved)

Theorems: `C03_repeated_indexing_partial`, `C03_stored_mask_wrong`, `C03_masked_scalar_wrong`, `C03_zero_step_accepted`.

### C04 — NumpyArrayAdapter reads orthogonally from a fancy-indexing source (partial)

orthogonal sources: all keys. NumPy sources: exact for all int/slice/tuple keys (C04_exact); a scalar and a tuple separated by a slice evaluate transposed in the code (proved)

Theorems: `C04_numpy_adapter_reads_orthogonally_partial`, `C04_ortho_adapter`, `C04_scalar_slice_tuple_transposed`, `C04_exact`.

### C05 — An out-of-range index is rejected at indexing time by adapters (partial)

After any keys without a boolean mask: rejected exactly when out of range. The code violates the property for a dimension from which a boolean mask has selected (C05_mask_violation): no integer is accepted there, whatever the other keys; which exception is raised is C05_integer_where_a_mask_was (a mask anywhere among the previous keys). Tuples and masks after a mask are not modelled beyond the failure.

Theorems: `C05_out_of_range_is_rejected`, `C05_integer_key`, `C05_integer_after_a_mask`, `C05_integer_where_a_mask_was`, `C05_integer_where_a_mask_was_any_keys`, `C05_mask_violation`.

### C06 — Slicing a lazy array and then evaluating equals evaluating and then slicing (partial)

every expression of the grammar Spec/Built.lean of any depth, any number of indexing steps with ints, forward slices, newaxis; index arrays/masks under decidable guards; the excluded cases fail in the code (C03, C04, C08, C09, C12, C14 witnesses)

Theorems: `C06_simple_keys`, `C06_index_then_evaluate`, `C06_supported_keys_partial`, `C06_engine_supported_keys_partial`, `C06_engine_agrees`, `C03_masked_scalar_wrong`.

### C07 — ConstantArray indexing (partial)

all valid keys; exact for all keys (C07_exact); out-of-range keys are accepted by the code (proved)

Theorems: `C07_constant_indexing`, `C07_out_of_range_accepted`, `C07_list_key_rejected`, `C07_exact`.

### C08 — newaxis on any array inserts length-1 dimensions where NumPy would (partial)

newaxis keys among ints and slices are right everywhere; with a slice or tuple that selects a number other than 1 of an existing new axis the code is right exactly when no integer key comes before it (C08_right_iff); what it does otherwise is C08_exact (the wrong axis is stretched, or ValueError)

Theorems: `C08_new_axes_array`, `C08_newaxis_keys`, `C08_new_axis_after_integer_wrong`, `C08_exact`, `C08_right_iff`, `C08_wrong_axis_cut`.

### C09 — BroadcastArray repeats data exactly as NumPy broadcasting does (partial)

broadcasts of broadcasts with leading dimensions are misaligned by the code (proved)

Theorems: `C09_broadcast_repeats_data`, `C09_invalid_broadcast_rejected`, `C09_nested_leading_misaligned`, `C09_leading_out_of_range_accepted`, `C09_nested_exact`, `C09_more_leading`, `C09_keys_refused`.

### C10 — Broadcasting two arrays follows NumPy's rule, symmetrically (partial)

leading dimensions of length 0 and operands that already have leading broadcast dimensions are rejected by the code (proved)

Theorems: `C10_broadcast_arrays_partial`, `C10_broadcast_arrays_symmetric`, `C10_empty_leading_dimension_rejected`, `C10_leading_broadcast_rejected`, `C10_exact`, `C10_leading_broadcast_misaligned`.

### C11 — Transposition (partial)

every permutation; simple keys, and index arrays over orthogonal sources, in any number of steps; axes that are not a permutation are accepted by the code (proved); other index arrays: C06_supported_keys_partial

Theorems: `C11_transpose`, `C11_transpose_inverse`, `C11_transposed_indexing`, `C11_non_permutation_accepted`, `C11_transposed_index_arrays`, `C11_numpy_source_transposed`.

### C12 — ArrayStack is a stack (partial)

C12_exact says what the code does for every list of keys on the stack dimensions: right if something is selected and there is at most one index array, not separated by a slice from an integer; IndexError for an empty selection and for two or more index arrays; otherwise the dimension of the index array in front or IndexError. The last three cases contradict the property (proved).

Theorems: `C12_array_stack`, `C12_stack_indexing`, `C12_exact`, `C12_two_index_arrays_fail`.

### C13 — multidim_array_stack orders its items like reshape (proved)

every list of arrays, every stack shape, both orders

Theorems: `C13_multidim_array_stack`, `C13_size_mismatch`.

### C14 — LinearMosaic is concatenation (partial)

non-negative ints, forward non-empty slices, index tuples; exact behaviour for every slice (C14_slice_exact) and every negative int (C14_negative_integer_exact/raises): right iff one tile is touched / the other tiles are empty; boolean masks raise (proved)

Theorems: `C14_linear_mosaic`, `C14_mosaic_indexing_partial`, `C14_mosaic_index_arrays_partial`, `C14_negative_integer_wrong`, `C14_negative_step_wrong`, `C14_empty_slice_and_mask_fail`, `C14_numpy_tiles_fail`, `C14_slice_exact`, `C14_negative_integer_exact`, `C14_negative_integer_raises`, `C14_broadcast_tiles_fail`, `C14_empty_mosaic_fails`, `C14_negative_index_in_tuple_wrong`.

### C15 — astype and masking commute with indexing (partial)

exact: only the last of a chain of casts takes effect (C15_exact), so chained astype casts only once in the code (proved)

Theorems: `C15_astype`, `C15_astype_indexing`, `C15_mask_indexing`, `C15_chained_astype_casts_once`, `C15_exact`.

### C16 — Chunks tile the array exactly once (proved)

every shape, limit, iteration order

Theorems: `C16_cuts_tile_each_dimension`, `C16_each_element_in_exactly_one_chunk`, `C16_chunk_elements_are_array_elements`.

### C17 — No chunk exceeds the limit (proved)

every shape, limit >= 1, iteration order

Theorems: `C17_chunk_size_limit`, `C17_save_chunk_size_limit`, `C17_small_array_single_chunk`.

### C18 — Chunk traversal in any iteration order visits each chunk once and keeps the requested nesting (proved)

every shape, limit and permutation

Theorems: `C18_chunks_are_the_product_each_once`, `C18_traversal_follows_iteration_order`.

### C19 — save() writes every element exactly once with the right value (partial)

every expression of the grammar Spec/Built.lean: each target element assigned exactly once with the source's element; that each source element is read only once is C32

Theorems: `C19_save`, `C19_save_writes_every_element_once`, `C32_save_reads_once_partial`, `C32_save_ortho_reads_once`.

### C20 — count, sum and mean do not depend on the chunking (proved)

exact arithmetic; every column and every cutting of it

Theorems: `C20_sum_of_any_chunking`, `C20_count_of_any_chunking`, `C20_mean_of_any_chunking`, `C20_chunking_independence`, `C20_count_sum_mean_arrays`.

### C21 — Masked count, sum and mean honour the mask and mdtol (partial)

masked data without a mask array (nomask): sum over an axis other than 0 raises (proved)

Theorems: `C21_masked_count`, `C21_masked_sum_partial`, `C21_nomask_sum_raises`, `C21_masked_mean`, `C21_C23_masked_arrays`.

### C22 — min and max do not depend on the chunking (partial)

the property is false of the code if the axis is cut: the handlers overwrite their result. Proved: right for every expression of the grammar if the axis is not cut (other dimensions may be), exactly what is returned otherwise (the minimum of the last piece, enginePieces), and that for sources these are the only shapes and limits for which it is right whatever the data (C22_sources_iff)

Theorems: `C22_single_chunk_partial`, `C22_min_right_iff`, `C22_min_is_min_of_last_chunk`, `C22_max_is_max_of_last_chunk`, `C22_min_wrong_for_two_chunks`, `C22_masked_min_is_min_of_last_chunk`, `C22_masked_max_is_max_of_last_chunk`, `C22_masked_min_lost`, `C22_C23_one_chunk_arrays_partial`, `C22_masked_one_chunk_arrays_partial`, `C22_min_array_wrong`, `C22_exact_arrays`, `C22_masked_exact_arrays`, `C22_sources_iff`.

### C23 — std and var equal the textbook two-pass value for any chunking (partial)

masked: every chunking. unmasked: right for every expression of the grammar if chunks have room for two values of a column; false of the code if the pieces are of one value: exactly what is returned is proved (C23_exact_arrays, stdValues), and for sources exactly for which shapes and limits it is right whatever the data (C23_sources_iff)

Theorems: `C23_std_var_partial`, `C23_var_value_partial`, `C23_std_drops_leading_singletons`, `C23_std_wrong_for_singleton_first_chunk`, `C23_masked_std`, `C23_masked_var`, `C21_C23_masked_arrays`, `C22_C23_one_chunk_arrays_partial`, `C23_two_values_arrays_partial`, `C23_exact_arrays`, `C23_sources_iff`.

### C24 — Element-wise operations stream correctly (partial)

ndarray() / masked_array(), also after any history of simple keys: proved whatever chunks the operands are read in. The streaming engine (ndarrays([...])): operands chunked alike, or each in one chunk; operands chunked differently give wrong data in the code (C24_mismatched_chunks_wrong).

Theorems: `C24_elementwise`, `C24_indexed`, `C24_elementwise_unary`, `C24_no_masked_operation`, `C24_mismatched_chunks_wrong`.

### C25 — The result of the threaded engine does not depend on the thread schedule (proved)

every graph of nodes, every schedule, every queue size and wiring order

Theorems: `C25_schedule_independent`, `C25_same_outcome`.

### C26 — The threaded engine returns exactly the data of the sequential evaluation or raises (partial)

exact: a node that does not itself raise aborts iff a source fails and no source of the node ends earlier; false of the code when an operand sends fewer chunks than fail-free ones: the failure is overlooked and a result returned (proved)

Theorems: `C26_terminated_is_sequential`, `C26_result_is_sequential`, `C26_failure_propagates`, `C26_C27_tree_results`, `C26_group`, `C26_aborts_iff`, `C26_failure_overlooked`.

### C27 — Evaluation terminates (partial)

false in the code for shared sources when a node fails or the nodes proceed at different paces (proved)

Theorems: `C27_tree_terminates`, `C27_clocked_terminates`, `C27_failure_with_shared_source_hangs`, `C27_different_paces_deadlock`, `C27_small_terminates`, `C27_group_tree`, `C27_conflicting_orders_hang`.

### C28 — Evaluating arrays together equals evaluating them one by one (partial)

holds when no object is asked for in two different iteration orders, or when every array fits one chunk; false in the code otherwise (proved)

Theorems: `C28_together_as_alone`, `C28_one_chunk`, `C28_values`, `C28_values_one_chunk`, `C28_conflicting_orders_wrong`.

### C29 — Aggregation chunks of one output region arrive contiguously (proved)

every shape, limit, axis, order and nesting depth (aggregations and element-wise operations in between, whose operands are cut alike), whatever the data: contiguity, one chunk per output region, exact tiling

Theorems: `C29_nested_aggregations`, `C29_chunks_of_one_output_region_contiguous`.

### C30 — Indexing an aggregation commutes with aggregating (partial)

simple keys, and index arrays over orthogonal sources: every history; other index arrays: in one step under the source's guards. The property fails of the code for stacks indexed with two tuples and for min/max cut into several chunks (witnesses)

Theorems: `C30_aggregation_indexing`, `C30_aggregation_supported_keys_partial`, `C30_aggregation_index_arrays`, `C30_stack_source_fails`, `C30_min_differs`.

### C31 — Axis arguments are normalised like NumPy (partial)

For every function, array and axis argument: a valid single axis is accepted and normalised; None and tuples of several axes are rejected. False in the code for min/max/sum, which raise AssertionError instead of the documented error, and for one-shot iterators; both are proved as counterexamples.

Theorems: `C31_single_axis`, `C31_not_one_axis`, `C31_invalid_axes`, `C31_min_max_sum_assert`, `C31_one_shot_iterator_refused`.

### C32 — Each source element is read at most once per evaluation and none before (partial)

Building and indexing read nothing (all expressions, all keys). Evaluation and the engine read each needed source element exactly once and nothing else, for every chunk limit and every thrifty expression of the grammar, in particular all expressions over orthogonal sources without broadcasting. Missing because false of the code: broadcasts that are chunked read their array once per chunk, NumPy sources indexed in two dimensions and then chunked read the whole source for every chunk (both witnessed). save(): same, for saveThrifty expressions.

Theorems: `C32_indexing_reads_nothing`, `C32_building_reads_nothing`, `C32_reads_once_partial`, `C32_engine_reads_once_partial`, `C32_ortho_reads_once`, `C32_no_element_twice`, `C32_indexed_reads`, `C32_broadcast_reads_again`, `C32_numpy_slice_reads_too_much`, `C32_save_reads_once_partial`, `C32_save_ortho_reads_once`, `C32_save_numpy_aggregation_reads_too_much`.

### C33 — Human-readable size picks the right unit (partial)

size() picks the right unit for every nbytes; nbytes equals the product while it fits in int64. np.product wraps at 2^63: proved as a counterexample (C33_nbytes_overflow).

Theorems: `C33_nbytes_partial`, `C33_nbytes_overflow`, `C33_size`.

### C34 — Fill value of stacks and mosaics (proved)

for every stack and mosaic the constructors accept; NumPy's == on fill values is assumed symmetric, transitive and false on NaN. A mosaic of a single tile keeps that tile's fill value (also a complex NaN, which does not equal itself). Witness: new axes/broadcasts do not forward the fill value.

Theorems: `C34_stack_fill_value`, `C34_mosaic_fill_value`, `C34_containers_forget`.

### C35 — Constructors reject inconsistent parts (partial)

accepted-iff-consistent with ValueError otherwise, well-formedness and shape of what is accepted (its evaluation: C08, C09, C11, C12, C14). False of the code and shown so: TransposedArray accepts non-permutations; an empty stack/mosaic or a tile of too low rank raises IndexError; re-stretching a stretched axis is accepted.

Theorems: `C35_newaxes`, `C35_broadcast`, `C35_transposed_partial`, `C35_stack`, `C35_mosaic`, `C35_transposed_accepts_non_permutation`, `C35_empty_stack`, `C35_mosaic_index_error`, `C35_broadcast_twice_accepted`.

### C36 — Key grouping finds common chunk boundaries (proved)

Dimensions of positive length. C36_gives_up shows that the iteration limit is reached by legitimate inputs of more than 9999 slices.

Theorems: `C36_groups`, `C36_succeeds`, `C36_gives_up`, `C36_example`, `C36_alike`.

### C37 — group_keys puts each key of each input in exactly one group (proved)

Arrays without zero-length dimensions. C37_same_list_twice shows why the lists must be separate objects: group_keys removes keys from its arguments.

Theorems: `C37_group_keys`, `C37_succeeds`, `C37_each_key_once`, `C37_same_list_twice`, `C37_example`.

### C38 — The dask engine agrees with the threaded engine (partial)

The graph that DaskGroup builds (chunk tasks, key grouping, handler tasks, collect tasks, node cache by object identity), executed in any order: for all lists of arrays (sharing objects in any way, any iteration orders, any chunk limit, plain or masked) for which evaluation is claimed right, every execution ends and returns what the threaded engine returns for each array alone. Missing because false of the code: operands cut in different chunks (AttributeError, witnessed), 10000 or more chunks along a dimension (RuntimeError, proved for every such vector); so the theorem asks for at most 9999 parts along each dimension of an operation, which is sharp.

Theorems: `C38_dask_is_threaded_partial`, `C38_dask_terminates`, `C38_mismatched_chunks_fail`, `C38_many_chunks_fail`.

### C39 — Declared dtype equals the dtype of the evaluated result and is stable under indexing (partial)

dtype stable under any successful indexing of any expression; evaluated dtype equals declared dtype. False of the code and shown so: a single masked element evaluates to float64; an operand given as a Python number.

Theorems: `C39_indexing_keeps_dtype`, `C39_stack_checks_dtypes`, `C39_mosaic_checks_dtypes`, `C39_evaluated_dtype_partial`, `C39_elementwise_dtype`, `C39_masked_scalar_wrong`, `C39_python_number_wrong`, `C39_aggregation_dtype`.

### C40 — Operators dispatch to the element-wise functions or decline (partial)

Operator dispatch through Python's reflected protocol for Built operands and NumPy/scalar right operands. NumPy arrays on the left: NumPy's dispatch by __array_priority__ is modelled, result right whether lazy or computed at once; masked data on the right loses its mask when computed at once: false of the code (proved).

Theorems: `C40_unsupported_operand`, `C40_operators`, `C40_rejected_operands`, `C40_declines`, `C40_numpy_left`, `C40_numpy_left_eager`, `C40_numpy_left_loses_mask`, `C40_priority`.

### C41 — Integers and forward slices: index then evaluate = evaluate then index (proved)

Grammar Arr.Built, histories of simple keys

Theorems: `C06_index_then_evaluate`, `C06_simple_keys`.

### C42 — The engine and ndarray() agree (proved)

Arrays that the engine may cut; every chunk limit

Theorems: `C42_engine_is_direct`.

### C43 — The chunk limit does not influence results (proved)

Any two limits for which the expression is in the grammar (count, sum, mean and all masked ones but min/max: any limit)

Theorems: `C43_limit_irrelevant`.

### C44 — Indexing takes a snapshot of mutable stacks (proved)

Heap of stack objects and object arrays, expressions of every class over them; the later program may construct, index, copy and assign. C44_snapshot: any keys, same exception as for immutable expressions. The exception for stacks inside a BroadcastArray is necessary: C44_broadcast_shares.

Theorems: `C44_slices_are_snapshots`, `C44_snapshot`, `C44_broadcast_shares`.

### C45 — Assigning an item of a stack changes exactly that item (proved)

The hypotheses (item shape, value does not contain the stack, no other stack shares the object array) are necessary: proved witnesses

Theorems: `C45_assignment`, `C45_shape_not_checked`, `C45_object_array_shared`, `C45_self_assignment`, `C45_accepts`.

### C46 — Deep copies are equal and independent (proved)

Equal evaluation, and independence of every later program in both directions

Theorems: `C46_deepcopy`.

### C47 — Masked std and var do not depend on the chunking (proved)

Column level for any chunking; arrays: any expression of the grammar; exact arithmetic

Theorems: `C23_masked_std`, `C23_masked_var`, `C21_C23_masked_arrays`.

### C48 — Masked count and mean do not depend on the chunking (proved)

Column level for any chunking; arrays: any expression of the grammar; exact arithmetic

Theorems: `C21_masked_count`, `C21_masked_mean`, `C21_C23_masked_arrays`.

### C49 — Every aggregation of data that fits one chunk is right (proved)

All seven aggregations, plain and masked

Theorems: `C49_one_chunk_aggregations`, `C49_masked_one_chunk_aggregations`.

### C50 — Indexing keeps the dtype (proved)

DtypeOk: what the constructors check

Theorems: `C39_indexing_keeps_dtype`.

### C51 — No data is read before evaluation (proved)

Instrumented model

Theorems: `C32_indexing_reads_nothing`, `C32_building_reads_nothing`.

### C52 — Orthogonal sources are read exactly once per evaluation (proved)

Instrumented model; every chunk limit

Theorems: `C32_ortho_reads_once`, `C32_no_element_twice`, `C32_save_ortho_reads_once`.

### C53 — save() writes every target element exactly once (proved)

Grammar; every chunk limit

Theorems: `C19_save`, `C19_save_writes_every_element_once`.

### C54 — size() picks the right unit (proved)

Every number of bytes

Theorems: `C33_size`.

### C55 — Groups that share nothing always terminate (proved)

Transition system of threads and bounded queues; every schedule, any point of failure

Theorems: `C27_group_tree`, `C27_tree_terminates`, `C26_C27_tree_results`.

### C56 — Evaluating together equals evaluating one by one if every shared array is asked for in one order (proved)

Compatible: one order per object; samePace: operands are streamed in the same way

Theorems: `C28_values`, `C28_together_as_alone`.

### C57 — Transposition is a permutation of the dimensions (proved)

Genuine permutations, histories of simple keys

Theorems: `C11_transpose`, `C11_transpose_inverse`, `C11_transposed_indexing`.

### C58 — Stacks and mosaics contain their parts (proved)

Every shape, axis and nesting; indexing: see C12, C14

Theorems: `C12_array_stack`, `C14_linear_mosaic`, `C13_multidim_array_stack`.

### C59 — New axes and broadcasts repeat the data (proved)

Broadcasts of broadcasts without leading dimensions included

Theorems: `C08_new_axes_array`, `C09_broadcast_repeats_data`, `C09_invalid_broadcast_rejected`.

### C60 — Orthogonal adapters: any keys, any number of times (proved)

Any history of keys without newaxis; result with at least one dimension, or a source that is not masked

Theorems: `C60_ortho_history`, `C04_ortho_adapter`.

### C61 — No partial result is ever returned (proved)

Every graph of nodes, every reachable state

Theorems: `C26_terminated_is_sequential`, `C26_result_is_sequential`.

### C62 — Binary operators are applied in the written order or declined (proved)

Finite table of operators, arbitrary operands

Theorems: `C40_operators`, `C40_declines`, `C40_unsupported_operand`, `C40_rejected_operands`.

### C63 — NewAxesArray, ArrayStack and LinearMosaic accept exactly the consistent inputs (proved)

Accepted iff consistent, ValueError otherwise; shape and well-formedness of what is accepted

Theorems: `C35_newaxes`, `C35_stack`, `C35_mosaic`.

### C64 — An interrupted or failing save leaves no garbage (proved)

Every expression of the grammar, every number of pieces done, every failing read; the write of one piece is one step (target arrays in memory).

Theorems: `C64_interrupted_save`, `C64_no_garbage`.

### C65 — Deep copies keep the sharing of stacks (proved)

Sharing of stacks is kept; the sharing of one object array by two stacks is not (proved witness, outside the statement).

Theorems: `C65_deepcopy_keeps_sharing`, `C65_object_array_unshared`.

### C66 — Repeated indexing with index tuples and arrays (proved)

Grammar Spec/Built.lean with orthogonal sources, histories of PickKeys (Spec/Clean.lean); repeated and negative indices when no aggregation inside depends on the chunking (C66_repeats: min, max and unmasked std give other answers on more than one chunk, C20, C22, C23). NumPy sources mix integers and index arrays wrongly (C04).

Theorems: `C66_index_arrays`, `C66_index_arrays_engine`, `C66_repeats`, `C66_repeats_engine`.

### C67 — Sum and mean of machine integers (partial)

sum: exact for every dtype, data and chunking. mean: right exactly when the exact sum is a value of the dtype of the data (the code accumulates in that dtype); masked mean also needs the number of elements to fit. False of the code beyond (witnessed: the int8 mean of 100, 100 is -28; 256 int8 values have a masked mean; unsigned masked means raise TypeError)

Theorems: `C67_sum`, `C67_mean`, `C67_masked_sum`, `C67_masked_mean`, `C67_masked_mean_exact`, `C67_arrays`, `C67_masked_arrays`, `C67_mean_overflows`, `C67_masked_mean_overflows`, `C67_unsigned_masked_mean_raises`.

### C68 — Counts (partial)

exact characterisation: the value int32 holds, right iff fewer than 2^31 elements; beyond that the code is wrong (proved)

Theorems: `C68_count`, `C68_masked_count`, `C68_arrays`, `C68_masked_arrays`, `C68_count_overflows`.

### C69 — Aggregations accept every dtype of numbers (partial)

Exact characterisation for every chunking, dtype kind and aggregation: which ones raise TypeError and that all the others give the value of C20-C23. The property itself fails: sum and mean of booleans, the masked mean of unsigned integers and the masked mean of a one-dimensional integer array with an all-masked chunk raise TypeError (C69_refused).

Theorems: `C69_plain_exact`, `C69_masked_exact`, `C69_refused`.

### C70 — Threaded evaluation is right under every schedule, at every level of nesting (proved)

Every engine call, nested ones included, may have any complete execution of its threads (relation Arr.Runs; executions exist and all of them return the array). The restriction on what the objects of one call share is necessary: C70_conflicting_orders_wrong.

Theorems: `C70_every_schedule`, `C70_group_every_schedule`, `C70_save_every_schedule`, `C70_conflicting_orders_wrong`.

### C71 — In-place save (proved)

The loop of save with every block read from the current content of the target. The restriction to pointwise expressions (or one chunk) is necessary: C71_other_elements_wrong.

Theorems: `C71_in_place`, `C71_in_place_masked`, `C71_one_chunk`, `C71_other_elements_wrong`.

### C72 — Lazy expressions see later assignments (proved)

Expressions of every class over mutable stacks; value corollaries for element-wise operations and aggregations with the guards of C24, C20, C21

Theorems: `C72_evaluation`, `C72_built_from_current_parts`, `C72_mosaic_of_current_tiles`, `C72_elementwise`, `C72_elementwise_unary`, `C72_aggregations`, `C72_masked_aggregations`.

### C73 — Announced shapes never change (proved)

Every class, every later program

Theorems: `C73_shape_never_changes`.

### C74 — Bounded memory in flight (partial)

Proved for every schedule and every number of steps: at most MAX_CHUNK_SIZE x (6 x number of array occurrences + 2 x number of results) elements are in flight. Restriction: no aggregation along an axis of length 0, because the code violates the bound there (C74_empty_axis_unbounded: an array without elements is one chunk whatever its shape). Not counted: the final results, the memory needed while a chunk of a source is read (including nested engine evaluations), and Python local variables that keep the previous chunk alive.

Theorems: `C74_graph`, `C74_bounded_memory`, `C74_empty_axis_unbounded`.

### C75 — Integers out of range are rejected by every class (partial)

Proved for every well-formed expression of every class and every dimension that is checked (Arr.checks, a small recursive specification): sources, stacks, mosaics (up to the mosaic axis), new and stretched axes, and everything built on them. The code violates it for ConstantArray dimensions (C07_out_of_range_accepted, C76_constant_never_ends) and leading dimensions of broadcasts (C76_leading_never_ends). For dimensions of a mosaic after its axis: IndexError if the tiles are made of sources by casts, transposition, aggregation and element-wise operations (C75_mosaic); for other mosaics only that the index is never accepted is proved (C78_never_accepted), not the kind of exception. A mosaic without elements along its axis rejects integers in range too (C75_empty_mosaic). Beside other keys: C75_whatever_the_other_keys, for dimensions of sources.

Theorems: `C75_out_of_range_rejected`, `C75_built`, `C07_out_of_range_accepted`, `C76_leading_never_ends`, `C75_mosaic`, `C75_mosaic_of_sources`, `C75_whatever_the_other_keys`, `C75_empty_mosaic`.

### C76 — Iterating over an array gives its rows (partial)

Proved for every expression of the grammar Arr.Built whose first dimension is checked, for any length; nested loops to any depth (C76_nested_loops, C76_elements: the elements in row-major order) for expressions without constants, leading broadcast dimensions and inner mosaics, except in the second operand of an operation (Arr.deep). The code violates it for constants and leading broadcast dimensions (iteration never ends), 0-dimensional arrays (iterating gives nothing instead of raising TypeError), and sources indexed with a boolean array (TypeError).

Theorems: `C76_iteration`, `C76_nested_loops`, `C76_elements`, `C76_constant_never_ends`, `C76_leading_never_ends`, `C76_zero_dim_empty`, `C76_mask_then_iterate_raises`.

### C77 — ndarray() and masked_array() agree on unmasked elements (partial)

Proved for every expression of the grammar (every class, aggregation, element-wise operation, dtype cast, declared missing value), every history of simple keys, and the streaming engine, provided only data without masked elements is aggregated; and, if nothing masks anything, the masked result has no masked element. The code violates it for aggregations of masked data, where ndarray() aggregates the fill values (C77_aggregated_masked_differs). Masked arrays are modelled with a full mask array: the masked sum of data held without one along an axis other than 0 raises (C21_nomask_sum_raises).

Theorems: `C77_unmasked_values_agree`, `C77_without_masks_equal`, `C77_indexed_and_streamed`, `C77_aggregated_masked_differs`.

### C78 — Indices that do not exist are never accepted (partial)

Proved for every well-formed expression of every class, every key tuple and every dimension except those where the code violates it: dimensions of a ConstantArray (C07_out_of_range_accepted), leading dimensions of a broadcast (C76_leading_never_ends) and, for sequences only, the axis of a mosaic (C78_mosaic_sequence_accepted). Which exception is raised is claimed only by C75 (a single integer) and for too many keys.

Theorems: `C78_never_accepted`, `C78_built`, `C78_too_many_keys`, `C78_mosaic_sequence_accepted`, `C07_out_of_range_accepted`, `C76_leading_never_ends`.

### C79 — NaN and infinities go through aggregations as in NumPy (partial)

Proved: sum, mean and count of every column for every chunking, masked or not, and of every expression of the grammar evaluated directly or by the engine; min and max of one chunk; std and var: finite data (with division by zero as in NumPy), data with a NaN (NaN), data with an infinity (never finite; exactly when NaN); masked std and var for every chunking with at least two unmasked values or only finite ones (numpy.ma masks results that are not finite). The code violates the claim for std/var of data with an infinity and of a single non-finite value (C79_std_wrong, C79_masked_std_wrong), and for several chunks as in C22/C23. Not modelled: rounding, signed zeros. numpy.ma is modelled with a full mask array.

Theorems: `C79_sum`, `C79_mean`, `C79_count`, `C79_min_max_of_last_chunk`, `C79_std_finite`, `C79_std_nan`, `C79_std_not_finite`, `C79_std_inf_exact`, `C79_std_wrong`, `C79_count_sum_mean_arrays`, `C79_one_chunk_arrays`, `C79_masked_sum`, `C79_masked_mean`, `C79_masked_count`, `C79_masked_std`, `C79_masked_std_wrong`, `C79_masked_arrays`, `C79_masked_min_max_one_chunk`, `C79_masked_equal`, `C79_masked_std_finite`.

### C80 — Rounding errors of sums and means do not get worse by chunking (proved)

sum and mean, unmasked and masked, for every chunking, order of additions and rounding function with relative error u (instance: binary numbers of p digits, binary_rounding); arrays: every expression of the grammar. The counts are rounded as in the code (divided by the rounded length; masked means keep a running count in the dtype of the array, C80_masked_count_rounds shows it stop). The masked theorem for long axes is for mdtol >= 1 (the default). Overflow and underflow are left out

Theorems: `C80_sum_order`, `C80_sum_error`, `C80_sum_exact`, `C80_mean_error`, `C80_mean_error_long`, `C80_masked_sum`, `C80_masked_mean`, `C80_masked_mean_long`, `C80_arrays`, `C80_masked_arrays`, `C80_masked_mean_arrays_long`, `C80_chunks_matter`, `C80_masked_count_rounds`.

### C81 — Rounding never makes a deviation negative, or zero for values that differ (proved)

C81_two_values_arrays: unmasked, whenever a chunk has room for two values of the axis; C81_arrays without that condition, where leading chunks of one value are forgotten (the bug of C23, stated exactly by stdValues). Masked: every chunking. ddof = 0 for masked arrays (C81_masked_std: any ddof below the number of values, exact counts if ddof > 1). Overflow and underflow are left out

Theorems: `C81_std`, `C81_masked_std`, `C81_arrays`, `C81_two_values_arrays`, `C81_masked_arrays`.

### C82 — Rounding errors of variances are bounded whatever the chunking (proved)

Forward error bound with explicit constants for every rounding function, length and chunking (unmasked: chunks with room for two values of the axis; C82_std without that condition for the values that are not forgotten). Hypothesis: the counts are representable (in double precision: fewer than 2^53 values, binary_counts). Overflow and underflow are left out. pow_small turns the bound into 2(8n+4)u. Instance: 1000 doubles in [-1, 1], error below 1e-11

Theorems: `C82_std`, `C82_masked_std`, `C82_two_values_arrays`, `C82_masked_arrays`.

### C83 — An interrupted in-place save leaves every element old or new (proved)

every pointwise expression of the target, every crash point and every failing read; C83_repeated_is_wrong shows that such a save must not simply be repeated

Theorems: `C83_interrupted_in_place`, `C83_interrupted_in_place_masked`.

### C84 — The fill value survives indexing and evaluation (partial)

indexing: every expression with one fill value throughout, any history without newaxis; masked_array(): every class that is not a view, cast or masking, and views of arrays with the default fill value. False of the code otherwise (witnessed): views, astype and masked_equal of an array with its own fill value, the engine, stacks of parts with different fill values

Theorems: `C84_indexing_keeps_fill_partial`, `C84_evaluated_fill_partial`, `C84_views_of_default`, `C84_views_wrong`, `C84_engine_forgets`, `C84_mixed_stack_changes`.

### C85 — Programs of biggus operations compute what the same NumPy programs compute (proved)

Programs are the relation Arr.Program (Spec/Program.lean): one constructor per public operation, with the biggus operation on the left and NumPy's on the right. C85_index_step, C85_agg_step: such steps always succeed. exProgram: a stack, below a mean, of indexed sums. Exclusions are those of the statement (and broadcasting an array that has leading broadcast dimensions; an axis of length 0 is not aggregated); outside them the code is wrong or fails, as recorded under C04-C12, C22, C24, C27, C30.

Theorems: `C85_programs`, `C85_masked_programs`, `C85_index_step`, `C85_agg_step`, `exProgram`, `C85_saved`, `C85_saved_masked`, `C85_together`, `C85_together_masked`, `exProgram_saved`, `exTogether_programs`, `C85_stack_step`, `C85_mosaic_step`, `C85_axes_steps`, `C85_elementwise_step`, `C85_dask`, `C85_dask_masked`, `exTwoSums_programs`.

### C86 — A stack can be evaluated while other threads assign to its items (proved)

Assignments by other threads fall between the accesses of the evaluating thread, any number before each. The two witnesses show the limits stated in the property: several assigned items mix, and the engine tears items. Also for aggregations and element-wise operations over the stack: the result is that of an array whose elements are elements the stack had. The items are immutable.

Theorems: `C86_quiet`, `C86_items_are_whole`, `C86_one_item`, `C86_before_or_after`, `C86_engine_elements`, `C86_reader`, `C86_expressions`, `C86_save`, `C86_quiet_save`, `C86_two_assignments_mix`, `C86_engine_tears_items`.

### C87 — Evaluating while the source changes (proved)

C87_expressions: any producers (also views and stacks over changing sources). C87_sources: equal to an undisturbed evaluation by the model of the engine. The witness shows the limit stated in the property: two objects, two copies.

Theorems: `C87_quiet`, `C87_expressions`, `C87_sources`, `C87_with_itself`, `C87_two_objects_differ`, `C87_save`, `C87_save_source`.

## 6. Testing the theorems against wrong programs

`seeded/LOG.jsonl`: each line is a model definition edited in a scratch copy the way a bug would change the program, the
claim it breaks and the theorems (or modules) that then fail to build. Survivors led to stronger theorems, recorded in
the line.
