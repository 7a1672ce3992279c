{"id": "C01", "title": "Ellipsis and short keys expand like NumPy", "statement": "a[keys] means the same as a[keys'] where keys' has exactly one non-newaxis key per dimension: a single Ellipsis is replaced by as many ':' as are needed, missing trailing keys are ':' and every newaxis stays at its place; too many keys raise IndexError and nothing else does.", "quantifier": "every key tuple (any mix of int, slice, tuple, array, newaxis, at most one Ellipsis) and every number of dimensions", "why_tests_cant": "The space of key tuples and ranks is unbounded; tests try about a dozen tuples.", "anchors": ["biggus/_init.py:_full_keys", "biggus/_init.py:Array.__getitem__"]}
{"id": "C02", "title": "The shape announced for an indexed array is NumPy's shape", "statement": "For valid keys the shape computed lazily for a[keys] equals the shape of the orthogonally indexed data, for int, slice (any start/stop/step sign), tuple, integer-array, boolean-array and newaxis keys.", "quantifier": "every shape, every full or partial key tuple valid for that shape", "why_tests_cant": "Start/stop/step are arbitrary integers, incl. negative and out of range.", "anchors": ["biggus/_init.py:_sliced_shape", "biggus/_init.py:_ArrayAdapter.shape"]}
{"id": "C03", "title": "Indexing an adapter repeatedly equals indexing the data repeatedly", "statement": "For an adapter over a data source, A[k1][k2]...[kn].ndarray() is the orthogonal indexing of the source by k1, then k2, ..., kn, whatever the keys.", "quantifier": "every source, every finite sequence of valid key tuples", "why_tests_cant": "Histories of indexing are unbounded and the composed key depends on all of them.", "anchors": ["biggus/_init.py:_ArrayAdapter._getitem_full_keys", "biggus/_init.py:_ArrayAdapter._remap_new_key", "biggus/_init.py:_ArrayAdapter._cleanup_new_key"]}
{"id": "C04", "title": "NumpyArrayAdapter reads orthogonally from a fancy-indexing source", "statement": "NumpyArrayAdapter.ndarray()/masked_array() returns the orthogonal selection described by its keys although the underlying source zips multiple iterables; in particular its result has the announced shape.", "quantifier": "every source array, every combination of int/slice/tuple keys", "why_tests_cant": "NumPy's mixed basic/advanced rules depend on the relative position of all keys.", "anchors": ["biggus/_init.py:NumpyArrayAdapter._apply_keys"]}
{"id": "C05", "title": "An out-of-range index is rejected at indexing time by adapters", "statement": "Indexing an adapter with an int (or tuple element) outside [-n, n) raises IndexError at once, and every in-range key is accepted.", "quantifier": "every source, every previously applied keys, every new key tuple", "why_tests_cant": "Two-sided claim over all integers and all previous selections.", "anchors": ["biggus/_init.py:_ArrayAdapter._cleanup_new_key", "biggus/_init.py:_ArrayAdapter._remap_new_key"]}
{"id": "C06", "title": "Slicing a lazy array and then evaluating equals evaluating and then slicing", "statement": "For every biggus expression built from adapters, constants, newaxis, broadcasting, transposing, stacking, mosaics, astype, masking, element-wise operations and aggregations, a[keys].ndarray() equals a.ndarray()[keys] (orthogonal indexing); the same for masked_array().", "quantifier": "every expression tree of any depth, every key tuple, both evaluation modes", "why_tests_cant": "Expressions nest without bound and each class rewrites the keys differently.", "anchors": ["biggus/_init.py:Array.__getitem__", "biggus/_init.py:_getitem_full_keys of every Array class"]}
{"id": "C07", "title": "ConstantArray indexing", "statement": "ConstantArray(shape, v)[keys] evaluates to an array of the NumPy-indexed shape filled with v; out-of-range keys raise IndexError.", "quantifier": "every shape, value and key tuple", "why_tests_cant": "All shapes and keys.", "anchors": ["biggus/_init.py:ConstantArray"]}
{"id": "C08", "title": "newaxis on any array inserts length-1 dimensions where NumPy would", "statement": "a[keys] with np.newaxis anywhere, and any later indexing of the result, has the NumPy shape and elements.", "quantifier": "every array, every placement of newaxis, every later key tuple", "why_tests_cant": "Placement combinations are unbounded.", "anchors": ["biggus/_init.py:NewAxesArray"]}
{"id": "C09", "title": "BroadcastArray repeats data exactly as NumPy broadcasting does", "statement": "A BroadcastArray (also a broadcast of a broadcast, and an indexed broadcast) has the announced shape and every element equals the element of the source with the broadcast coordinates dropped or set to 0.", "quantifier": "every source array, broadcast dict, leading shape, key tuple", "why_tests_cant": "All shapes and nestings.", "anchors": ["biggus/_init.py:BroadcastArray"]}
{"id": "C10", "title": "Broadcasting two arrays follows NumPy's rule, symmetrically", "statement": "broadcast_arrays(a, b) succeeds exactly when every right-aligned pair of sizes is equal or one of them is 1; both results then have the common NumPy shape and swapping the arguments swaps the results.", "quantifier": "every pair of shapes (any ranks, including 0-sized and scalar)", "why_tests_cant": "Pairs of shapes are unbounded.", "anchors": ["biggus/_init.py:BroadcastArray.broadcast_arrays", "biggus/_init.py:BroadcastArray._compute_broadcast_shape", "biggus/_init.py:BroadcastArray._compute_broadcast_kwargs"]}
{"id": "C11", "title": "Transposition", "statement": "a.transpose(axes) evaluates to the transposed data for every permutation; slicing the transposed array equals transposing first and slicing after, also when scalar keys drop dimensions; transposing twice by inverse permutations is the identity.", "quantifier": "every array, permutation and key tuple", "why_tests_cant": "n! permutations times all key tuples.", "anchors": ["biggus/_init.py:TransposedArray"]}
{"id": "C12", "title": "ArrayStack is a stack", "statement": "ArrayStack(stack) evaluates to the array whose [i..., j...] element is stack[i...][j...]; indexing it equals indexing that array.", "quantifier": "every stack shape, item shape and key tuple", "why_tests_cant": "Unbounded shapes; keys split between stack and items.", "anchors": ["biggus/_init.py:ArrayStack"]}
{"id": "C13", "title": "multidim_array_stack orders its items like reshape", "statement": "multidim_array_stack(arrays, shape, order) places arrays[k] at the position np.reshape(range(n), shape, order) would, for order C and F, for any number of dimensions; a mismatched size raises ValueError.", "quantifier": "every list of arrays and every shape with matching product, both orders", "why_tests_cant": "Recursion depth is the number of dimensions.", "anchors": ["biggus/_init.py:ArrayStack.multidim_array_stack", "biggus/_init.py:_groups_of", "biggus/_init.py:_pairwise"]}
{"id": "C14", "title": "LinearMosaic is concatenation", "statement": "LinearMosaic(tiles, axis) evaluates to np.concatenate(tiles, axis), and m[keys] equals the concatenation indexed by keys, for non-negative and negative ints, tuples, and slices of any step.", "quantifier": "every list of tiles, axis and key tuple", "why_tests_cant": "Tile boundaries interact with arbitrary indices.", "anchors": ["biggus/_init.py:LinearMosaic"]}
{"id": "C15", "title": "astype and masking commute with indexing", "statement": "a.astype(t)[k] evaluates to a[k] cast to t; masked_equal(a, v)[k].masked_array() is a[k] with elements equal to v masked and no others; chained astype casts twice.", "quantifier": "every array, key tuple, dtype/mask value", "why_tests_cant": "All arrays and keys.", "anchors": ["biggus/_init.py:AsDataTypeArray", "biggus/_init.py:MaskValueArray"]}
{"id": "C16", "title": "Chunks tile the array exactly once", "statement": "For any shape and chunk limit the slices generated per dimension cover every index exactly once, in order, so the product of slices covers every element exactly once.", "quantifier": "every shape (any rank, 0-sized dimensions included), every MAX_CHUNK_SIZE >= 1, both always_slices settings", "why_tests_cant": "Off-by-one at every size/limit combination.", "anchors": ["biggus/_init.py:_all_slices_inner"]}
{"id": "C17", "title": "No chunk exceeds the limit", "statement": "Every chunk produced has at most MAX_CHUNK_SIZE elements.", "quantifier": "every shape and every MAX_CHUNK_SIZE >= 1", "why_tests_cant": "All sizes.", "anchors": ["biggus/_init.py:_all_slices_inner", "biggus/_init.py:MAX_CHUNK_SIZE"]}
{"id": "C18", "title": "Chunk traversal in any iteration order visits each chunk once and keeps the requested nesting", "statement": "For every permutation iteration_order, the generated chunk keys are exactly the product of the per-dimension slices, each once, and the last dimension of iteration_order varies fastest.", "quantifier": "every shape, limit and permutation", "why_tests_cant": "n! orders.", "anchors": ["biggus/_init.py:ProducerNode.chunk_index_gen"]}
{"id": "C19", "title": "save() writes every element exactly once with the right value", "statement": "After biggus.save([source],[target]) every element of target equals source's element (masked or not), each target element is assigned exactly once, and each source element is read exactly once.", "quantifier": "every source expression, shape and chunk limit", "why_tests_cant": "Element-wise over unbounded arrays and all chunkings.", "anchors": ["biggus/_init.py:save", "biggus/_init.py:_all_slices"]}
{"id": "C20", "title": "count, sum and mean do not depend on the chunking", "statement": "count/sum/mean over an axis evaluated through chunks equals the whole-array count/sum/mean for any chunking of the aggregated and the other axes (exact arithmetic; sum in any commutative monoid, hence also modular integers).", "quantifier": "every array, axis, chunk limit", "why_tests_cant": "All chunkings.", "anchors": ["biggus/_init.py:_CountStreamsHandler", "biggus/_init.py:_SumStreamsHandler", "biggus/_init.py:_MeanStreamsHandler", "biggus/_init.py:_AggregationStreamsHandler.process_chunks"]}
{"id": "C21", "title": "Masked count, sum and mean honour the mask and mdtol", "statement": "With masked data, count counts unmasked elements, sum and mean use only them, a result is masked iff no element is unmasked, and mean additionally masks iff the masked fraction exceeds mdtol (mdtol < 1), for any chunking.", "quantifier": "every masked array, axis, mdtol and chunking", "why_tests_cant": "All mask patterns and chunkings.", "anchors": ["biggus/_init.py:_CountMaskedStreamsHandler", "biggus/_init.py:_SumMaskedStreamsHandler", "biggus/_init.py:_MeanMaskedStreamsHandler"]}
{"id": "C22", "title": "min and max do not depend on the chunking", "statement": "min/max over an axis evaluated through chunks equals the whole-array min/max for any chunking.", "quantifier": "every array, axis, chunk limit", "why_tests_cant": "All chunkings.", "anchors": ["biggus/_init.py:_MinStreamsHandler", "biggus/_init.py:_MaxStreamsHandler", "biggus/_init.py:_MinMaskedStreamsHandler", "biggus/_init.py:_MaxMaskedStreamsHandler"]}
{"id": "C23", "title": "std and var equal the textbook two-pass value for any chunking", "statement": "The single-pass recurrence gives sum((x-mean)^2)/(n-ddof) (and its square root), for unmasked and for masked data, for any chunking (exact arithmetic).", "quantifier": "every non-empty column of data, every ddof, every chunking", "why_tests_cant": "The recurrence is an induction over unbounded data and over chunk boundaries.", "anchors": ["biggus/_init.py:_StdStreamsHandler", "biggus/_init.py:_StdMaskedStreamsHandler", "biggus/_init.py:_VarStreamsHandler", "biggus/_init.py:_VarMaskedStreamsHandler"]}
{"id": "C24", "title": "Element-wise operations stream correctly", "statement": "biggus.ndarrays([op(a, b)]) equals op applied element by element to the evaluated operands.", "quantifier": "every pair of operands (which may themselves be aggregations), every chunk limit", "why_tests_cant": "Chunk sequences of the operands must line up for all shapes.", "anchors": ["biggus/_init.py:_ElementwiseStreamsHandler", "biggus/_init.py:_Elementwise", "biggus/_init.py:ConsumerNode.run"]}
{"id": "C25", "title": "The result of the threaded engine does not depend on the thread schedule", "statement": "For every expression graph, all interleavings of the node threads lead to the same outcome (same results, or same failure, or same hang).", "quantifier": "every graph, every node behaviour (including exceptions), every interleaving, every queue capacity", "why_tests_cant": "Interleavings are unbounded.", "anchors": ["biggus/_init.py:ConsumerNode.run", "biggus/_init.py:ProducerNode.run", "biggus/_init.py:AllThreadedEngine.Group.evaluate"]}
{"id": "C26", "title": "The threaded engine returns exactly the data of the sequential evaluation or raises", "statement": "Whenever a result thread finishes, its result is the array assembled from the chunks the sequential evaluation would produce; if any upstream node raises, the result is None and evaluation raises - partial data is never returned.", "quantifier": "every graph, schedule and failure point", "why_tests_cant": "Crash points times interleavings.", "anchors": ["biggus/_init.py:NdarrayNode", "biggus/_init.py:Node.abort", "biggus/_init.py:AllThreadedEngine.Group.evaluate"]}
{"id": "C27", "title": "Evaluation terminates", "statement": "Evaluating any group of arrays terminates: no schedule deadlocks on the bounded queues, also when a node raises.", "quantifier": "every graph, schedule and failure point", "why_tests_cant": "Deadlock freedom is a property of all reachable states.", "anchors": ["biggus/_init.py:ConsumerNode.add_input_nodes", "biggus/_init.py:AllThreadedEngine"]}
{"id": "C28", "title": "Evaluating arrays together equals evaluating them one by one", "statement": "biggus.ndarrays([a1,...,an]) == [a1.ndarray(),...,an.ndarray()], also when they share sources.", "quantifier": "every list of expressions with any sharing", "why_tests_cant": "Sharing patterns are unbounded.", "anchors": ["biggus/_init.py:AllThreadedEngine.Group._make_node", "biggus/_init.py:AllThreadedEngine._evaluate"]}
{"id": "C29", "title": "Aggregation chunks of one output region arrive contiguously", "statement": "In the order requested from its source, all chunks contributing to one output region arrive consecutively, so exactly one output chunk is emitted per output region and they tile the output exactly once, also for nested aggregations.", "quantifier": "every shape, limit, axis, outer iteration order and nesting depth", "why_tests_cant": "Orders and nestings are unbounded.", "anchors": ["biggus/_init.py:_AggregationStreamsHandler.input_iteration_order", "biggus/_init.py:_AggregationStreamsHandler.process_chunks"]}
{"id": "C30", "title": "Indexing an aggregation commutes with aggregating", "statement": "agg(a, axis)[keys] evaluates to the aggregated result indexed by keys.", "quantifier": "every array, axis, aggregation, key tuple", "why_tests_cant": "All key tuples, scalar keys shift the axis.", "anchors": ["biggus/_init.py:_Aggregation._getitem_full_keys"]}
{"id": "C31", "title": "Axis arguments are normalised like NumPy", "statement": "For an array of n dimensions axis a is accepted iff -n <= a < n and then denotes a mod n; None or several axes raise the documented error.", "quantifier": "every integer axis, every n, every iterable", "why_tests_cant": "All integers.", "anchors": ["biggus/_init.py:_normalise_axis", "biggus/_init.py:mean", "biggus/_init.py:count"]}
{"id": "C32", "title": "Each source element is read at most once per evaluation and none before", "statement": "Building and indexing expressions reads no data; one evaluation of a chunked expression over a source reads every needed source element exactly once.", "quantifier": "every expression without sharing, every chunk limit", "why_tests_cant": "All chunkings.", "anchors": ["biggus/_init.py:ProducerNode.run", "biggus/_init.py:save"]}
{"id": "C33", "title": "Human-readable size picks the right unit", "statement": "size(array) prints bytes below 1 KiB and otherwise the largest of KiB/MiB/GiB/TiB not exceeding the size, scaled by that unit; nbytes is the product of the shape times the item size.", "quantifier": "every byte count", "why_tests_cant": "All naturals.", "anchors": ["biggus/_init.py:size", "biggus/_init.py:Array.nbytes"]}
{"id": "C34", "title": "Fill value of stacks and mosaics", "statement": "The fill value of a stack/mosaic is the common fill value of its parts when they all agree (NaN agreeing with NaN for floats) and the dtype default otherwise.", "quantifier": "every list of parts", "why_tests_cant": "Lists are unbounded; order of the disagreement must not matter.", "anchors": ["biggus/_init.py:ArrayStack.__init__", "biggus/_init.py:LinearMosaic.__init__"]}
{"id": "C35", "title": "Constructors reject inconsistent parts", "statement": "ArrayStack, LinearMosaic, BroadcastArray, NewAxesArray and TransposedArray accept exactly the consistent inputs and raise ValueError otherwise; what they accept has a well-defined shape and can be evaluated.", "quantifier": "every argument list", "why_tests_cant": "All argument lists.", "anchors": ["biggus/_init.py:ArrayStack.__init__", "biggus/_init.py:LinearMosaic.__init__", "biggus/_init.py:BroadcastArray.__init__", "biggus/_init.py:NewAxesArray.__init__"]}
{"id": "C36", "title": "Key grouping finds common chunk boundaries", "statement": "For inputs that each partition a dimension, dimension_group_to_lowest_common splits the dimension into groups such that within each group every input's slices exactly tile the group, the groups tile the dimension, no input slice is lost or repeated, and no finer grouping exists; its only other outcome is the RuntimeError of its iteration limit, which never happens with at most 9999 slices in total.", "quantifier": "every dimension length, every number of inputs and all partitions of the dimension, in any order and notation (None, negative bounds, step 1, repeated slices)", "why_tests_cant": "All partitions.", "anchors": ["biggus/experimental/key_grouper.py:dimension_group_to_lowest_common", "biggus/experimental/key_grouper.py:normalize_slice"]}
{"id": "C37", "title": "group_keys puts each key of each input in exactly one group", "statement": "group_keys, called with separate lists of keys that each form a grid over the array, distributes the keys of all inputs over groups so that each key is in exactly one group, the groups' regions tile the array, a group's keys are the input's keys in the group's region in their original order, and they cover the region; no finer grouping per dimension exists. The only other outcome is the RuntimeError of C36. The caller's lists are emptied unless there is only one group.", "quantifier": "every number of dimensions, dimension lengths, inputs and grid chunkings, in any order", "why_tests_cant": "All chunkings.", "anchors": ["biggus/experimental/key_grouper.py:group_keys"]}
{"id": "C38", "title": "The dask engine agrees with the threaded engine", "statement": "DaskEngine().ndarrays(a) equals AllThreadedEngine().ndarrays(a).", "quantifier": "every expression", "why_tests_cant": "All expressions and chunkings.", "anchors": ["biggus/experimental/dask_engine.py:DaskGroup"]}
{"id": "C39", "title": "Declared dtype equals the dtype of the evaluated result and is stable under indexing", "statement": "a.dtype == a.ndarray().dtype and a[keys].dtype == a.dtype.", "quantifier": "every expression and key tuple", "why_tests_cant": "All expressions.", "anchors": ["biggus/_init.py:_Elementwise.__init__", "biggus/_init.py:AsDataTypeArray"]}
{"id": "C40", "title": "Operators dispatch to the element-wise functions or decline", "statement": "a + b, a - b, ... on biggus arrays evaluate to the NumPy operator applied to the evaluated operands in the written order (reflected forms included), and unsupported operands make Python raise TypeError rather than produce a value.", "quantifier": "every operator and operand pair", "why_tests_cant": "Finite table of operators times all operands.", "anchors": ["biggus/_init.py:Array.__add__", "biggus/_init.py:Array.__rsub__", "biggus/_init.py:ensure_array"]}
{"id": "C41", "title": "Integers and forward slices: index then evaluate = evaluate then index", "statement": "Any expression of the grammar (sources, constants, new axes, broadcasts, transpositions, stacks, mosaics, astype, masking, aggregations, element-wise operations, nested) indexed any number of times with in-range non-negative integers, forward slices that select something, Ellipsis and newaxis evaluates to the NumPy indexing of what the expression evaluates to.", "quantifier": "every expression of the grammar, every history of such keys, plain or masked, every chunk limit", "why_tests_cant": "Expressions and histories are unbounded.", "anchors": ["biggus/_init.py:Array.__getitem__", "biggus/_init.py:ArrayContainer", "biggus/_init.py:_Aggregation._getitem_full_keys"]}
{"id": "C42", "title": "The engine and ndarray() agree", "statement": "biggus.ndarrays([a]) and a.ndarray() return the same array, for a and for every a[k1]...[kn] with simple keys.", "quantifier": "every expression of the grammar, every history of simple keys, every chunk limit", "why_tests_cant": "All expressions and chunkings.", "anchors": ["biggus/_init.py:AllThreadedEngine", "biggus/_init.py:Array.ndarray"]}
{"id": "C43", "title": "The chunk limit does not influence results", "statement": "Two evaluations with different chunk limits give the same array (aggregations restricted to those that do not depend on the chunking: count, sum, mean, or data that fits one chunk for both limits).", "quantifier": "every expression of the grammar and every pair of limits", "why_tests_cant": "All limits and expressions.", "anchors": ["biggus/_init.py:MAX_CHUNK_SIZE", "biggus/_init.py:ProducerNode.chunk_index_gen"]}
{"id": "C44", "title": "Indexing takes a snapshot of mutable stacks", "statement": "The result of array[keys], for an array that is or uses mutable stacks, never changes afterwards, whatever is assigned to items of the stacks it was taken from (except items of the stacks the result itself consists of); assigning items of the result does not change the original. The stacks of the result are new, except that the result may share stacks that are inside a BroadcastArray of the original; with such sharing, slices are not snapshots.", "quantifier": "every nesting of stacks and expressions of any class over them, every later program of constructions, indexings, copies and assignments", "why_tests_cant": "Histories of assignments are unbounded.", "anchors": ["biggus/_init.py:ArrayStack.__setitem__", "biggus/_init.py:ArrayStack._getitem_full_keys"]}
{"id": "C45", "title": "Assigning an item of a stack changes exactly that item", "statement": "After stack[i, j, ...] = value (an array of the item shape, not containing the stack) the stack evaluates to what it did before with exactly the addressed block replaced by the value; arrays that do not use the stack evaluate as before.", "quantifier": "every stack shape, item shape, index (also negative) and value", "why_tests_cant": "All stacks and values.", "anchors": ["biggus/_init.py:ArrayStack.__setitem__"]}
{"id": "C46", "title": "Deep copies are equal and independent", "statement": "copy.deepcopy(a) evaluates to the same array as a; later assignments to items of a (or of the stacks inside it) do not change the copy, and conversely.", "quantifier": "every nesting of stacks, sharing of items included, every later program", "why_tests_cant": "Histories of assignments are unbounded.", "anchors": ["biggus/_init.py:ArrayStack.__deepcopy__"]}
{"id": "C47", "title": "Masked std and var do not depend on the chunking", "statement": "std and var of masked data over an axis equal the two-pass value of the unmasked elements (masked if there are none, or not more than ddof), for any chunking.", "quantifier": "every expression of the grammar in masked mode, every axis, ddof and chunk limit; exact arithmetic", "why_tests_cant": "All data and chunkings.", "anchors": ["biggus/_init.py:_StdMaskedStreamsHandler", "biggus/_init.py:_VarMaskedStreamsHandler"]}
{"id": "C48", "title": "Masked count and mean do not depend on the chunking", "statement": "count and mean of masked data over an axis use exactly the unmasked elements; mean is masked iff there are none or the masked fraction exceeds mdtol < 1; for any chunking.", "quantifier": "every expression of the grammar in masked mode, every axis, mdtol and chunk limit; exact arithmetic", "why_tests_cant": "All data and chunkings.", "anchors": ["biggus/_init.py:_CountMaskedStreamsHandler", "biggus/_init.py:_MeanMaskedStreamsHandler"]}
{"id": "C49", "title": "Every aggregation of data that fits one chunk is right", "statement": "If the data to be aggregated fits one chunk, count, min, max, sum, mean, std and var (plain or masked) equal NumPy's.", "quantifier": "every expression of the grammar that is read in one chunk, every axis", "why_tests_cant": "All data.", "anchors": ["biggus/_init.py:_AggregationStreamsHandler", "biggus/_init.py:min", "biggus/_init.py:max", "biggus/_init.py:std", "biggus/_init.py:var"]}
{"id": "C50", "title": "Indexing keeps the dtype", "statement": "a[keys].dtype == a.dtype whenever the indexing of an array with a consistent dtype (stack items, tiles: one dtype, as the constructors require) succeeds.", "quantifier": "every expression, every key tuple", "why_tests_cant": "All expressions and keys.", "anchors": ["biggus/_init.py:Array.__getitem__", "biggus/_init.py:Array.dtype"]}
{"id": "C51", "title": "No data is read before evaluation", "statement": "Building expressions, asking for their shape and indexing them makes no request to a data source.", "quantifier": "every expression and key tuple", "why_tests_cant": "All expressions.", "anchors": ["biggus/_init.py:Array.__getitem__", "biggus/_init.py:_ArrayAdapter"]}
{"id": "C52", "title": "Orthogonal sources are read exactly once per evaluation", "statement": "Evaluating an expression over orthogonal sources (netCDF variables) without broadcasts requests every needed element exactly once and nothing else, whatever the chunk limit.", "quantifier": "every such expression of the grammar, every chunk limit", "why_tests_cant": "All expressions and chunkings.", "anchors": ["biggus/_init.py:OrthoArrayAdapter", "biggus/_init.py:ProducerNode"]}
{"id": "C53", "title": "save() writes every target element exactly once", "statement": "After biggus.save([a], [target]) the target equals the evaluation of a; every element is assigned exactly once and lies in exactly one of the evaluated pieces.", "quantifier": "every expression of the grammar, every chunk limit", "why_tests_cant": "All expressions and chunkings.", "anchors": ["biggus/_init.py:save"]}
{"id": "C54", "title": "size() picks the right unit", "statement": "size(array) is '<n> B' below 1 KiB and otherwise uses the largest of KiB, MiB, GiB, TiB that does not exceed nbytes.", "quantifier": "every number of bytes", "why_tests_cant": "All sizes.", "anchors": ["biggus/_init.py:size"]}
{"id": "C55", "title": "Groups that share nothing always terminate", "statement": "If no array object is used twice in the arrays to evaluate, biggus.ndarrays never hangs, whatever fails and however the threads are scheduled: it gives the sequential results, or raises if one of the evaluations fails.", "quantifier": "every such group of arrays, every schedule, every queue size >= 1, every point of failure", "why_tests_cant": "Schedules and failure points.", "anchors": ["biggus/_init.py:AllThreadedEngine", "biggus/_init.py:ConsumerNode", "biggus/_init.py:ProducerNode"]}
{"id": "C56", "title": "Evaluating together equals evaluating one by one if every shared array is asked for in one order", "statement": "For arrays that share sub-expressions, all asked for in one iteration order and cut at the same pace, biggus.ndarrays returns the results of evaluating them one by one, under every schedule, and never hangs.", "quantifier": "every such group, every schedule", "why_tests_cant": "Schedules and sharing patterns.", "anchors": ["biggus/_init.py:AllThreadedEngine.Group._make_node", "biggus/_init.py:AllThreadedEngine.Group._evaluate"]}
{"id": "C57", "title": "Transposition is a permutation of the dimensions", "statement": "a.transpose(axes) evaluates to the transposed data (shape and every element); transposing by the inverse permutation gives a back; indexing with simple keys commutes with it.", "quantifier": "every array, permutation and history of simple keys", "why_tests_cant": "All arrays and permutations.", "anchors": ["biggus/_init.py:TransposedArray", "biggus/_init.py:Array.transpose"]}
{"id": "C58", "title": "Stacks and mosaics contain their parts", "statement": "ArrayStack: element [i..., j...] is stack[i...][j...]. LinearMosaic: the concatenation of the tiles along the axis. multidim_array_stack: items in C or F order.", "quantifier": "every stack shape, every list of tiles, every axis", "why_tests_cant": "All shapes.", "anchors": ["biggus/_init.py:ArrayStack", "biggus/_init.py:LinearMosaic", "biggus/_init.py:ArrayStack.multidim_array_stack"]}
{"id": "C59", "title": "New axes and broadcasts repeat the data", "statement": "A NewAxesArray evaluates to the data with the length-1 dimensions inserted; a BroadcastArray over an array that is no broadcast with leading dimensions repeats the data along the stretched and the leading dimensions; stretching a dimension that is not of length 1 is rejected.", "quantifier": "every array and arguments", "why_tests_cant": "All arrays.", "anchors": ["biggus/_init.py:NewAxesArray", "biggus/_init.py:BroadcastArray"]}
{"id": "C60", "title": "Orthogonal adapters: any keys, any number of times", "statement": "OrthoArrayAdapter(source)[k1]...[kn] evaluates to the orthogonal indexing of the source by k1, ..., kn, for integers, slices of any step, tuples, lists, index arrays, masks (if not indexed again) and Ellipsis; a single element of a source that is masked there is excluded (C03).", "quantifier": "every source and history of keys", "why_tests_cant": "All histories.", "anchors": ["biggus/_init.py:OrthoArrayAdapter", "biggus/_init.py:_ArrayAdapter._getitem_full_keys"]}
{"id": "C61", "title": "No partial result is ever returned", "statement": "Whenever a result thread has a result, in any reachable state of any execution, it is the one of the sequential evaluation of the graph.", "quantifier": "every graph of nodes, every reachable state of every schedule", "why_tests_cant": "Schedules.", "anchors": ["biggus/_init.py:NdarrayNode", "biggus/_init.py:ConsumerNode"]}
{"id": "C62", "title": "Binary operators are applied in the written order or declined", "statement": "x op y with a biggus array on either side (a NumPy array on the left, for which NumPy decides, is C40) dispatches to the element-wise function with operands in the written order; when the other operand cannot be converted the operator declines (NotImplemented), so Python raises TypeError.", "quantifier": "every operator, every operand", "why_tests_cant": "Finite table times all operands.", "anchors": ["biggus/_init.py:Array.__add__", "biggus/_init.py:Array.__rsub__", "biggus/_init.py:ensure_array"]}
{"id": "C63", "title": "NewAxesArray, ArrayStack and LinearMosaic accept exactly the consistent inputs", "statement": "NewAxesArray needs one non-negative number more than dimensions; a non-empty stack needs items of one shape and dtype; a mosaic of tiles of one rank needs shapes that agree except along a valid axis and one dtype. Everything else raises ValueError; what is accepted is well formed and has the documented shape.", "quantifier": "every input with at least one item", "why_tests_cant": "All inputs.", "anchors": ["biggus/_init.py:NewAxesArray.__init__", "biggus/_init.py:ArrayStack.__init__", "biggus/_init.py:LinearMosaic.__init__"]}
{"id": "C64", "title": "An interrupted or failing save leaves no garbage", "statement": "When biggus.save([a],[target]) is interrupted after any number of pieces, or ends with the exception of reading a piece, then a certain number of leading pieces have been written completely with the elements evaluation of a gives, every other element of the target is unchanged, and the exception is that of the next piece.", "quantifier": "every array expression, chunk limit, target, crash point and failure of a read", "why_tests_cant": "All crash points and all failures.", "anchors": ["biggus/_init.py:save", "biggus/_init.py:_all_slices"]}
{"id": "C65", "title": "Deep copies keep the sharing of stacks", "statement": "copy.deepcopy of an array made of stacks gives the same array with each stack replaced by a new one; a stack that occurs at several places is copied once and its copy occurs at the same places; different stacks have different copies with different object arrays.", "quantifier": "every heap of stacks and every array over it", "why_tests_cant": "All heaps, any nesting and sharing.", "anchors": ["biggus/_init.py:ArrayStack.__deepcopy__"]}
{"id": "C66", "title": "Repeated indexing with index tuples and arrays", "statement": "For expressions built from orthogonal data sources, constants, transpositions, one-dimensional stacks, mosaics, casts, maskings, element-wise operations and aggregations, a[k1]...[kn] with any mixture of integers, slices and tuples/arrays of distinct indices (any indices in range, if every aggregation inside is independent of the chunking) in every dimension evaluates to the orthogonally indexed array, through .ndarray() as well as through the chunking engine.", "quantifier": "all such expressions of any depth, all histories of keys, all chunk limits, masked and unmasked mode", "why_tests_cant": "the composition rules for stored keys differ for each pair of key types in each dimension and each class of array; a test only visits a few histories", "anchors": ["biggus/_init.py:_ArrayAdapter.__getitem__", "biggus/_init.py:_ArrayAdapter._cleanup_new_key", "biggus/_init.py:TransposedArray.__getitem__", "biggus/_init.py:ArrayStack.__getitem__", "biggus/_init.py:LinearMosaic.__getitem__", "biggus/_init.py:_Aggregation.__getitem__"]}
{"id": "C67", "title": "Sum and mean of machine integers", "statement": "For data of an integer dtype, sum and mean over an axis do not depend on the chunking; sum is the exact sum reduced to the dtype (NumPy's wrap-around), mean is the exact mean.", "quantifier": "all integer dtypes up to 64 bits, all columns of values (masked or not), all chunkings, all expressions of the grammar above them", "why_tests_cant": "overflow depends on the data and the dtype together; tests use small values and few elements", "anchors": ["biggus/_init.py:_SumStreamsHandler", "biggus/_init.py:_MeanStreamsHandler", "biggus/_init.py:_MeanMaskedStreamsHandler"]}
{"id": "C68", "title": "Counts", "statement": "count over an axis gives, for every element of the result, the number of (unmasked) elements along the axis, whatever the chunking.", "quantifier": "all columns of any length, masked or not, all chunkings, all expressions of the grammar above them", "why_tests_cant": "the result is an int32 accumulator: it is wrong only for axes of 2^31 elements or more, which no test can allocate", "anchors": ["biggus/_init.py:_CountStreamsHandler", "biggus/_init.py:_CountMaskedStreamsHandler", "biggus/_init.py:count"]}
{"id": "C69", "title": "Aggregations accept every dtype of numbers", "statement": "count, min, max, sum, mean, std and var of an array of booleans, integers or floats, plain or masked, can be evaluated whatever the dtype, the mask and the chunking: no dtype makes the evaluation raise.", "quantifier": "every aggregation, every kind of dtype, every number of dimensions, all columns and chunkings, every mask", "why_tests_cant": "whether an in-place addition is refused depends on dtype, mask and chunking together; tests use floats and small arrays", "anchors": ["biggus/_init.py:_SumStreamsHandler", "biggus/_init.py:_SumMaskedStreamsHandler", "biggus/_init.py:_MeanStreamsHandler", "biggus/_init.py:_MeanMaskedStreamsHandler", "biggus/_init.py:_StdMaskedStreamsHandler"]}
{"id": "C70", "title": "Threaded evaluation is right under every schedule, at every level of nesting", "statement": "ndarray(), masked_array(), biggus.ndarrays([...]) and save() of an expression return the NumPy array it stands for whatever the scheduling of the threads of every call of the engine involved, including the calls that producer threads make in turn to read their chunks (aggregations inside stacks inside aggregations ...): no schedule hangs, raises or changes a value. (The array objects of one call share nothing, or every shared one is asked for its chunks in one order, or everything is read in one chunk.)", "quantifier": "every expression of the grammar, every indexing history, every nesting, every combination of schedules of all the engine calls", "why_tests_cant": "the schedules of nested engine calls multiply; a test run sees one of them", "anchors": ["biggus/_init.py:AllThreadedEngine", "biggus/_init.py:ProducerNode.run", "biggus/_init.py:_Aggregation.ndarray", "biggus/_init.py:_Elementwise.ndarray", "biggus/_init.py:ndarrays", "biggus/_init.py:save"]}
{"id": "C71", "title": "In-place save", "statement": "save([e], [target]) leaves the value of e in the target also when e reads the target itself, if e computes every element from the same element of the target (the target, astype, masking, element-wise operations, combined with any arrays that do not read the target), or if the array fits in one chunk; plain and masked. For other expressions (reversal, subtracting a mean) the result can differ from the value of e.", "quantifier": "every pointwise expression, every target, every chunk limit", "why_tests_cant": "the blocks read after the first one see a partly overwritten target; small test arrays are saved in one block", "anchors": ["biggus/_init.py:save", "biggus/_init.py:_all_slices_inner"]}
{"id": "C72", "title": "Lazy expressions see later assignments", "statement": "An expression over mutable stacks built at some moment (operators, aggregations, transposition, broadcasting, mosaics, new axes, astype, masking) is evaluated, by ndarray(), masked_array() or the engine, as the same expression of what its parts are when it is evaluated: if after any later program a evaluates to x and b to y, then the earlier built a + b evaluates to x + y and sum(a) to the sum of x.", "quantifier": "every expression, every heap of stacks, every later program of constructions, indexings, copies and assignments", "why_tests_cant": "Histories of assignments are unbounded.", "anchors": ["biggus/_init.py:ArrayStack.__setitem__", "biggus/_init.py:_Elementwise", "biggus/_init.py:_Aggregation", "biggus/_init.py:LinearMosaic"]}
{"id": "C73", "title": "Announced shapes never change", "statement": "The shape an array announces stays the same for ever, whatever is assigned to items of the stacks it is made of; as long as it can be evaluated, the result has that shape.", "quantifier": "every expression over mutable stacks, every later program", "why_tests_cant": "Histories of assignments are unbounded.", "anchors": ["biggus/_init.py:ArrayStack.shape", "biggus/_init.py:ArrayStack.__setitem__", "biggus/_init.py:BroadcastArray.__init__", "biggus/_init.py:LinearMosaic.__init__"]}
{"id": "C74", "title": "Bounded memory in flight", "statement": "Evaluating arrays with the engine (ndarray, masked_array, ndarrays, masked_arrays) never holds more than a bounded amount of intermediate data: at every moment, under every thread schedule, the chunks waiting on queues, held by threads, and the partial results of aggregations together have at most MAX_CHUNK_SIZE x (6 x number of array occurrences in the expressions + 2 x number of results) elements, however large the arrays are.", "quantifier": "every group of expressions built from sources, element-wise operations and aggregations (no aggregation along an axis of length 0), every chunk limit, every interleaving of the threads, every moment of the execution", "why_tests_cant": "The bound must hold at every moment of every thread interleaving and for arrays of every size; a test observes a few moments of the schedules that happen to occur on small arrays.", "anchors": ["biggus/_init.py: Node.add_output_node / Node.output (bounded queues)", "biggus/_init.py: ProducerNode.run, chunk_index_gen", "biggus/_init.py: ConsumerNode.run, NdarrayNode", "biggus/_init.py: AllThreadedEngine._make_node, _evaluate", "biggus/_init.py: _AggregationStreamsHandler", "biggus/_init.py: MAX_CHUNK_SIZE, QUEUE size"]}
{"id": "C75", "title": "Integers out of range are rejected by every class", "statement": "Indexing any lazy array with an integer i outside [-n, n) for a dimension of length n raises IndexError at indexing time, whatever the array is made of (sources, stacks, mosaics, new axes, broadcasts, transpositions, casts, aggregations, element-wise operations).", "quantifier": "every expression, every dimension, every integer out of range, the other dimensions being taken whole", "why_tests_cant": "Expressions nest without bound, each class handles its keys in its own way, and the integer is arbitrary; tests try a few integers on a few classes.", "anchors": ["biggus/_init.py: Array.__getitem__ and all _getitem_full_keys", "biggus/_init.py: _ArrayAdapter._cleanup_new_key, _remap_new_key", "biggus/_init.py: NewAxesArray.__getitem__, BroadcastArray._getitem_full_keys, LinearMosaic._getitem_full_keys, ArrayStack._getitem_full_keys"]}
{"id": "C76", "title": "Iterating over an array gives its rows", "statement": "Iterating over a lazy array (for x in a, list(a), unpacking) ends after as many steps as its first dimension is long; the i-th item evaluates to a[i] of the evaluated array; stacking the items with ArrayStack gives an array equal to the original. Nested loops, as many as there are dimensions, visit all elements in row-major order, each once. (The classes define no __iter__ or __len__: Python asks for a[0], a[1], ... until IndexError.)", "quantifier": "every expression with at least one dimension, of any length", "why_tests_cant": "Termination and the values must hold for every expression and every length; a non-terminating iteration cannot be observed by a test.", "anchors": ["biggus/_init.py: Array.__getitem__", "biggus/_init.py: ConstantArray.__getitem__, BroadcastArray._getitem_full_keys, ArrayStack"]}
{"id": "C77", "title": "ndarray() and masked_array() agree on unmasked elements", "statement": "If ndarray() of an expression succeeds and its element-wise operations have masked variants, masked_array() succeeds too, both have the announced shape, and wherever masked_array() is not masked it shows the value ndarray() shows; if no source element is masked, no value is declared missing and no operation masks anything, masked_array() has no masked element at all. The same for every indexed version of the expression and for biggus.ndarrays / biggus.masked_arrays.", "quantifier": "every expression in which only data without masked elements is aggregated, every indexing history, every chunk size", "why_tests_cant": "The two evaluations use different handlers and operations at every node; their agreement must hold for every expression, data and mask.", "anchors": ["biggus/_init.py: Array.ndarray, Array.masked_array", "biggus/_init.py: _*MaskedStreamsHandler, MaskValueArray, _ArrayAdapter._cleanup_new_key", "biggus/_init.py: ndarrays, masked_arrays"]}
{"id": "C78", "title": "Indices that do not exist are never accepted", "statement": "Indexing an array with a tuple of keys in which the key for some dimension is an integer outside the dimension, or a sequence containing such an integer, raises an exception, whatever the keys for the other dimensions are (integers, slices, sequences, new axes, ...); so does indexing with more keys than there are dimensions (IndexError). It never returns an array.", "quantifier": "every expression of every class, every key tuple, every position of the offending key", "why_tests_cant": "The checks are spread over the classes, and each class may drop, reorder or rewrite the keys before the check; a single combination that slips through returns wrong data silently.", "anchors": ["biggus/_init.py: _ArrayAdapter._cleanup_new_key, _remap_new_key", "biggus/_init.py: NewAxesArray.__getitem__, BroadcastArray._getitem_full_keys, ArrayStack._getitem_full_keys, LinearMosaic._getitem_full_keys", "biggus/_init.py: ConstantArray.__getitem__, _full_keys"]}
{"id": "C79", "title": "NaN and infinities go through aggregations as in NumPy", "statement": "Aggregating float data with NaNs and infinities in it gives what NumPy gives for the whole data: count counts them; sum and mean are NaN if the lane has a NaN or infinities of both signs, and an infinity if it has one; min and max are NaN if there is a NaN, otherwise the least and greatest value with -inf and inf at the ends; std and var are NaN if any value is not finite. Division by zero (mean of nothing, ddof equal to the number of values) gives NaN or infinity, not a number.", "quantifier": "every float array expression, every position and combination of NaNs and infinities, every chunking, every ddof", "why_tests_cant": "Running sums and the one-pass variance treat non-finite values differently depending on their position and on the chunk boundaries; the combinations are unbounded.", "anchors": ["biggus/_init.py: _MinStreamsHandler, _MaxStreamsHandler, _SumStreamsHandler, _MeanStreamsHandler, _StdStreamsHandler, _VarStreamsHandler"]}
{"id": "C80", "title": "Rounding errors of sums and means do not get worse by chunking", "statement": "biggus.sum and biggus.mean of floating-point data, evaluated directly or by the engine, add up the (unmasked) values of each column exactly once each in some order, rounding after each addition; so, however the data is cut into chunks and in whatever order NumPy adds within a chunk, the error of a sum of n values is at most ((1+u)^(n-1)-1) times the sum of the absolute values (u the unit roundoff), that of a mean ((1+u)^n/(1-u)^k-1) times the mean of the absolute values, where k is how often the count is rounded (once, or for masked data once per chunk; k = 0 if the counts are representable), and a sum all of whose partial sums are representable is exact. The result may depend on the chunks within these bounds.", "quantifier": "all columns and cuts of columns into chunks, all orders of addition within a chunk, all rounding functions with relative error u, all expressions of the grammar, axes and chunk limits; masked and unmasked", "why_tests_cant": "floating-point tests compare with a tolerance on a few data sets; a bound that holds for all data, lengths and chunk limits needs an induction over the order of additions", "anchors": ["biggus/_init.py:_SumStreamsHandler", "biggus/_init.py:_SumMaskedStreamsHandler", "biggus/_init.py:_MeanStreamsHandler", "biggus/_init.py:_MeanMaskedStreamsHandler"]}
{"id": "C81", "title": "Rounding never makes a deviation negative, or zero for values that differ", "statement": "biggus.std and biggus.var of floating-point data, evaluated directly or by the engine with rounding after every operation, are never negative (no square root of a negative number arises), and they are zero exactly if all the (unmasked) values of the column are the same, however the data is cut into chunks that have room for two values of the axis (masked data: into any chunks); masked results arise exactly for columns without unmasked values.", "quantifier": "all columns, cuts into chunks, rounding functions with relative error u < 1 (masked: u <= 1/3, 1 and 2 representable), all expressions of the grammar, axes and chunk limits, degrees of freedom below the number of values", "why_tests_cant": "catastrophic cancellation shows up for particular values and chunk boundaries only; tests compare with a tolerance on a few data sets", "anchors": ["biggus/_init.py:_StdStreamsHandler", "biggus/_init.py:_StdMaskedStreamsHandler", "biggus/_init.py:_VarStreamsHandler", "biggus/_init.py:_VarMaskedStreamsHandler"]}
{"id": "C82", "title": "Rounding errors of variances are bounded whatever the chunking", "statement": "biggus.var of n floating-point values of absolute value at most M, evaluated directly or by the engine with rounding after every operation, differs from the exact variance by at most 4 M^2 (n-1)/(n-ddof) ((1+u)^(8(n-1)+4) - 1), and the square of biggus.std by at most the same with exponent 8(n-1)+3, however the data is cut into chunks that have room for two values of the axis (masked data: any chunks, n the number of unmasked values).", "quantifier": "all data, rounding functions with relative error u < 1, rounded square roots, cuts into chunks, expressions of the grammar, axes, chunk limits and degrees of freedom below n; counts representable", "why_tests_cant": "floating-point tests compare with a tolerance on a few data sets; a bound for all data, lengths and chunk boundaries needs an induction over the updates", "anchors": ["biggus/_init.py:_StdStreamsHandler", "biggus/_init.py:_StdMaskedStreamsHandler", "biggus/_init.py:_VarStreamsHandler", "biggus/_init.py:_VarMaskedStreamsHandler"]}
{"id": "C83", "title": "An interrupted in-place save leaves every element old or new", "statement": "If save([expr], [target]) is interrupted or fails while expr reads the target itself element by element (for example target*2 + other), then at every moment a number of whole blocks, in the order of writing, hold the values expr had before the save began, and every other element of the target is unchanged; the exception reported is that of reading the next block. No element is ever computed from already overwritten values.", "quantifier": "every pointwise expression, target, chunk limit, interruption point and failing read, plain and masked", "why_tests_cant": "crash points and failing reads range over all blocks of all shapes and limits; tests try none", "anchors": ["biggus/_init.py:save", "biggus/_init.py:_all_slices"]}
{"id": "C84", "title": "The fill value survives indexing and evaluation", "statement": "The fill_value an array announces is kept by indexing without newaxis, and it is the fill_value of the masked array that masked_array() or biggus.masked_arrays() returns.", "quantifier": "every expression, every history of index operations", "why_tests_cant": "expressions nest without bound and every class handles the fill value in its own way; tests look at single classes", "anchors": ["biggus/_init.py:Array.fill_value", "biggus/_init.py:ArrayStack.masked_array", "biggus/_init.py:LinearMosaic.masked_array", "biggus/_init.py:NdarrayNode"]}
{"id": "C85", "title": "Programs of biggus operations compute what the same NumPy programs compute", "statement": "Take any sequence of operations: wrap data sources, make constants, add axes, broadcast, transpose, stack, concatenate, cast, mask by value, aggregate over an axis, apply element-wise operations (with broadcasting), and index with integers in range, non-empty slices, newaxis (or tuples/arrays of distinct indices) at any point, before or after any other operation. Then evaluating the final array - directly or through the chunking engine, masked or not - gives the array NumPy gets by performing the same sequence on the data. Conditions on the operations: columns of min/max (and of std with single values) are not cut; operands of element-wise operations that are themselves streamed are cut alike; an array containing a mosaic is indexed forwards only; an array that is indexed after being made an argument of an aggregation or element-wise operation is not a stack or mosaic of computed arrays.", "quantifier": "every sequence of operations of any length, all data, shapes and chunk limits", "why_tests_cant": "The interaction of unboundedly many nested operations, each chunked on its own.", "anchors": ["biggus/_init.py:Array.__getitem__", "biggus/_init.py:ArrayStack", "biggus/_init.py:LinearMosaic", "biggus/_init.py:_Aggregation", "biggus/_init.py:_Elementwise", "biggus/_init.py:AllThreadedEngine"]}
{"id": "C86", "title": "A stack can be evaluated while other threads assign to its items", "statement": "If one thread evaluates an ArrayStack with ndarray() or masked_array() while other threads assign items (of the item shape) to it, the evaluation succeeds and every item of the result is, as a whole, the item the stack held at that position at the moment the evaluation came to it. If all assignments during the evaluation are to one item - in particular if there is only one - the result is that of evaluating the stack at one moment: before or after the assignment. With several assigned items the result can mix old and new items in a combination the stack never had. If the stack is evaluated by the engine, every element of the result is the stack's element at that position when its chunk was read; an item that is cut into several chunks can come out partly old and partly new. The engine's result for aggregations and element-wise operations over the stack (asked for in one order) is their value for an array of which every element is one the stack had at that position at some moment during the evaluation. The same holds for every element of a target to which the stack is saved with biggus.save.", "quantifier": "all stacks, all items of the item shape ever assigned, all numbers, positions and moments of assignments between the accesses of the evaluating thread, all chunk sizes", "why_tests_cant": "The outcome depends on where in the evaluation the other thread's assignments fall; a test sees one interleaving, usually with no assignment in between.", "anchors": ["biggus/_init.py: ArrayStack.__setitem__, ArrayStack.ndarray, ArrayStack.masked_array, ArrayStack._getitem_full_keys, ProducerNode.run"]}
{"id": "C87", "title": "Evaluating while the source changes", "statement": "If the data of sources is written by others while the engine evaluates an expression over them (arrays, views, aggregations, element-wise operations; every array object asked for in one order of dimensions, see C28), the evaluation succeeds and its result is exactly that of an undisturbed evaluation over data of which every element is one the source had at that position at the moment it was copied. Each element is copied once for each array object, and all consumers of the object see the same copy; in particular x - x is 0 whatever is written to x meanwhile. Two objects over the same data are read separately and can see different data. With biggus.save every element of the target is the source expression's element at that position at the moment its block was read.", "quantifier": "all expressions of the grammar that ask for every array object in one order, all sources and all contents they go through, all moments at which the elements are copied, all chunk sizes, masked or not", "why_tests_cant": "The outcome depends on when each element is copied relative to the writes; tests evaluate data that stays put.", "anchors": ["biggus/_init.py: AllThreadedEngine._Group._make_node (369-385: one node for each array object)", "biggus/_init.py: ProducerNode.run", "biggus/_init.py: _ArrayAdapter.ndarray", "biggus/_init.py: NdarrayNode", "biggus/_init.py: save"]}
