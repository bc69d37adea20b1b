# Formal model of advanced_library_cpp (Lean 4)

## 1. Approach

The C++ headers under `/repo/AdvancedLibraryCpp` are read as text and re-expressed function by function as
small total computable Lean functions. Every definition of a model file cites the file and lines it models.
Properties are stated against small independent specifications (plain arrays, connectivity closure, recency
list, multiset, list sums, trace predicates) and proved for all inputs, states and histories.

* Undefined behaviour is a distinct outcome: `Res.ub`. C++ exceptions are `Res.exc e`. A theorem that concludes
  `= Res.ok …` therefore also says "no UB, no exception".
* Files per component `X`: `Verif/X/Model.lean` (code), `Verif/X/Spec.lean` (independent specification),
  `Verif/X/Lemmas*.lean` and `*Inv.lean` (helper lemmas), `Verif/X/Props*.lean` (the property theorems `Cnn_…`, the
  `example`s beside them, and counterexample theorems where the code violates the property).
* Names: `Cnn_…` proved at full strength; `Cnn_…_partial` proved under extra hypotheses or for part of the claim
  (the doc comment says what is missing); `Cnn_counterexample…` a proved negation with a concrete witness. Where a
  claim fails, its full statement is kept as a definition `Cnn_statement` next to the counterexample.
* Concurrency: labelled transition systems `step : St → Act → Option St`, one label per atomic step of a thread or of
  the environment (timeouts, spurious wake-ups, the clock). `Reach` is reachability by any schedule of any length
  with any number of threads. A ghost log records the observable events; specifications are functions of the log.

* Pointers: `Verif/Mem` models the AVL tree and its nodes a second time, on a memory with addresses, `new`, `delete`,
  pointer slots (`node_type_t*&`) and references into nodes; dereferencing null or a deleted node is UB. It is proved to
  refine the tree model of `Verif/Avl` (`insert_rep`, `remove_rep`, `copyNode_rep`, …), so the results on values and
  those on memory are about the same functions. Addresses are not reused. `Verif/Mem/Bin*.lean` does the same for programs over
  plain binary trees, where any node may be assigned to any other; their specification is a list of plain inductive trees.
  `Verif/NMem` does it for programs over n-ary trees and the owning pointers that `extract_child` and `replace_at` return.

## 2. Trusted base

* The Lean 4.33.0 kernel. Axioms: at most `propext`, `Classical.choice`, `Quot.sound` (checked by
  `#print axioms` on all property theorems). No own axioms, no `sorry`, no `native_decide`, no `bv_decide`.
* The faithfulness of the hand-written model to the C++ text (cited per definition). The code is never run.
* C++ standard library containers behave as their standard specification (vector, deque, list, map, set,
  string, stringstream, priority_queue, sort); a moved-from `std::list` or `std::vector` is empty; allocation never
  fails (except in C141, C154, C155 and C158-C162, C188), `reserve` is not modelled; template arguments' operators are the mathematical ones given as parameters of the
  model (order, equality, group operations); orders are linear, except in C163, C164, C196-C198, which are about NaN (for C197: `std::min` and `std::max` as in libstdc++).
* Platform: 64-bit `size_t`, `unsigned long` and `uint_fast32_t`. Unsigned arithmetic wraps modulo `2^64` where the
  code can reach the bound. Signed element types are modelled as unbounded integers unless a property is about
  overflow (C142-C145, C156, C157, C202 and C206 for Fenwick trees and sequences of signed integers).
* The stack is unlimited, except in C207-C210 (nested calls of AVL, segment and n-ary trees and of `sum_of_subsets`).
* Floating point: the square root of `divisors_of` is modelled as round-to-nearest conversion to double and
  round-to-nearest root (C79). The size of the segment tree's heap, `ceil(pow(2.0, log2(n) + 2))`, is only assumed to
  be accurate to one part in `2^33` (C56). The powers of
  C157 are rounded to 53 bits. C165 rounds every operation of `next_random_double` to some nearest finite double; its generator and distribution are those of libstdc++. C191 and C195-C199 compute with
  IEEE 754 binary64 numbers (`Binary64.lean`: finite doubles as multiples of `2^-1074`, rounding to nearest even, overflow, infinities and NaN; the two zeros are one). Elsewhere floating point values are exact rationals.
* Callbacks do not modify the structure they are called from (except in C138-C140, C194) and do not throw (except in C141, C154, C155, C158-C162 and where
  a property is about exceptions).
* Concurrency: sequentially consistent interleaving of the atomic steps listed in the model; mutexes and condition
  variables behave as specified (with spurious and timed wake-ups). Plain variables accessed without a mutex are
  atomic in the model, and separate properties (C108, C109, C112, C113) say exactly which of these accesses race.

## 3. What is modelled, what is not

Modelled: all headers under `structures/`, `classic/sequences/`, `concurrency/`, and of `tools/`: `divisors.h`,
`math_operation.h`, `enum_factory.h`, `delimiters.h`, `read_csv.h`, `random.h`, `timestamp.h`, `memory.h`.

Not modelled: `tools/types.h` (type names), the tests, allocation failure (except in C141, C154, C155 and C158-C162, C188, C192),
exceptions thrown by user callbacks, weak memory, the operating system scheduler.


## 4. The properties

* **C01** Fenwick range sum after construction. For a sum Fenwick tree built from a vector (optionally limited to its first number_of_elements elements), query(a,b) returns the sum of the stored elements at 1-based positions lo..hi, where the bounds may be given in either order, each bound above the number of stored elements counts as that number, and position 0 holds nothing.
  * in `Verif/Fenwick/Props.lean`
  * `C01_build_query`: a sum tree built from a vector answers every query with the sum of the addressed elements.
  * `C01_build_query_machine`: for machine integers: sums are modulo `2^64`.
* **C02** Fenwick sum tree behaves like a plain array over any history. After any sequence of rebuild, update, set_value, resize (to at least one cell), copy and move operations on any number of trees, every query on a sum Fenwick tree returns what the same operations on a plain array followed by a range sum would return.
  * in `Verif/Fenwick/Props.lean`
  * `C02_history`: every history of rebuild/update/set_value/query/resize/copy/move on a family of trees gives, call by call, the results that plain lists give.
* **C03** Fenwick set_value sets exactly one position. set_value(p,v) on a built sum tree returns true iff 0 < p < size(); then query(p,p)=v and query(q,q) is unchanged for every other q; otherwise nothing changes.
  * in `Verif/Fenwick/Props.lean`
  * `C03_set_value`: `set_value` on any reachable built sum tree.
* **C04** Fenwick update result and frame. update(p,v) on a built tree returns true iff p < size(); for p = 0 or p >= size() no query answer changes; for 0<p<size() the element at p becomes element + v and every other element is unchanged.
  * in `Verif/Fenwick/Props.lean`
  * `C04_update`: `update` on any reachable built sum tree.
* **C05** Fenwick unbuilt trees throw, moves transfer. query, update and set_value on a tree that is not built throw fenwick_not_built_exception_t and change nothing; after moving from a tree the source is not built and empty, and the destination answers exactly as the source did.
  * in `Verif/Fenwick/Props.lean`
  * `C05_unbuilt_and_move`: unbuilt trees throw (the store is unchanged by construction of the call: no new tree is returned), and a move transfers all answers and leaves the source unbuilt and empty. Any transform.
  * `C05_history`: at the level of histories: a call on an unbuilt object throws `not built` and leaves every object as is.
* **C06** Fenwick range product. For a multiplication Fenwick tree over integers, query(a,b) returns the product of the elements in the clamped range.
  * in `Verif/Fenwick/Props.lean`
  * `C06_product_query_partial`: Full claim: `query x y` on a product tree is the product of the addressed elements. Proved when no element *before* the addressed range is zero; missing: prefixes containing a zero, for which the claim is false (`C06_counterexample`, `C06_exact`).
  * `C06_exact`: exactly as the code behaves: a zero before the addressed range makes the answer 0. So the answer is the product if and only if no zero comes before the range or one is in it.
  * `C06_counterexample`: the claim fails: in `[0, 5]` the product of position 2 alone is reported as 0.
* **C07** Fenwick product update multiplies by the given value. update(p,v) on a multiplication tree multiplies the element at p by v, for every v.
  * in `Verif/Fenwick/Props.lean`
  * `C07_product_update_partial`: Full claim: `update p v` on a product tree multiplies element `p` by `v`, for every `v`. Proved for `v ≠ 0` (observed through all prefix queries, which involve no division); missing: `v = 0`, for which the claim is false (`C07_counterexample`, `C07_zero`).
  * `C07_zero`: exactly as the code behaves for `v = 0`: the call reports success and changes nothing, so no query sees it.
  * `C07_counterexample`: the claim fails for `v = 0`: the update is reported as done but the product stays.
* **C08** Fenwick downsizing keeps the remaining prefix. After resize(k) with k < size(), size() = k and every query whose bounds lie below k returns exactly what it returned before; resize(k) with k >= size() changes nothing.
  * in `Verif/Fenwick/Props.lean`
  * `C08_resize`: downsizing keeps every answer about the remaining prefix (any transform, any content).
* **C09** Fenwick calls never touch memory outside the internal array. Every query, update and set_value on a built tree terminates and only reads or writes existing cells, whatever the bounds passed.
  * in `Verif/Fenwick/Props.lean`
  * `C09_in_bounds_partial`: Full claim: every query/update/set_value on a built tree stays inside the array. Proved for every tree (whatever its contents) of at least one cell, every argument. Missing: an array downsized to zero cells, where `query` reads out of bounds (`C09_counterexample`).
  * `C09_counterexample`: the claim fails after `resize(0)`: every query with both bounds given reads outside the array.
  * `C09_exact`: exactly: on a built tree a query leaves the array if and only if the array has no cell, and then whatever the bounds are; `update` and `set_value` never leave it, even then.
* **C10** union_set same() is connectivity. same(a,b) returns true iff a and b exist and are connected through the joins performed so far, with or without path compression.
  * in `Verif/UnionFind/Props.lean`
  * `C10_same`: in every reachable object, `same(a, b)` terminates without error and answers connectivity under the joins performed so far.
* **C11** union_set join() result. join(a,b) returns true iff both sets exist and they were not yet connected; afterwards exactly the classes of a and b are merged.
  * in `Verif/UnionFind/Props.lean`
  * `C11_join`: `join(a, b)` returns true iff both sets exist and were not connected; afterwards `same` says that exactly the classes of `a` and `b` have been merged.
* **C12** union_set disjoint() counts the classes. disjoint() always equals the number of equivalence classes of the elements.
  * in `Verif/UnionFind/Props.lean`
  * `C12_disjoint`: `disjoint()` is the number of classes.
* **C13** union_set size_of() is the class size. size_of(x) equals the number of elements connected to x, and 0 if x does not exist, whatever compressions happened before.
  * in `Verif/UnionFind/Props.lean`
  * `C13_size_of`: `size_of(x)` is the size of the class of `x`, 0 for a missing set.
* **C14** union_set find() returns a canonical member and disturbs nothing. find(x) returns a member of x's class, find(x)=find(y) iff same(x,y), find on a missing set returns not_found, and find/same/size_of never change which elements are connected, the class sizes or disjoint().
  * in `Verif/UnionFind/Props.lean`
  * `C14_find`: `find(x)` returns a member of the class of `x`; between joins two `find`s (with any reads in between) agree iff their arguments are connected; missing sets give `not_found`, which is no set; reads change neither the classes nor `disjoint()`.
* **C15** union_set lookups take logarithmic depth. The recursion of find(x) never goes deeper than log2 of the size of x's class.
  * in `Verif/UnionFind/Props.lean`
  * `C15_depth`: `find(x)` makes at most `log2 k` recursive calls, `k` the size of the class of `x`: with that depth available it completes with the same result.
* **C16** union_set insert() contract. insert(x) returns true iff x was not present before, and after it x is present as its own singleton without disturbing others.
  * in `Verif/UnionFind/Exact.lean`, `Verif/UnionFind/Props.lean`
  * `C16_never`: **C16 (exact)**: `insert(x)` breaks its description in every state and for every `x`: a new `x` is still missing afterwards; for an existing `x` the result is never that of making `x` a set of its own (some other set still hangs below it, or `size_of` still counts it, or `disjoint()` counts it twice), and never that of leaving the object as it was (`disjoint()` changes).
  * `C16_insert_partial`: what `insert` does. The return value is as documented, and elements other than `x` keep their parent and rank cells, but a new `x` is not inserted (nothing changes) and an existing `x` is reset to a root of rank 1 with both counters increased. The documented contract (after the call `x` is present as a singleton, the rest undisturbed) fails in both cases: `C16_counterexample`.
  * `C16_counterexample`: the claim fails: `insert` of a new id does not make it exist; `insert` of an existing, joined id (here the representative 1 of {0,1}) leaves it joined while `disjoint()` counts one class more; `insert` of the other member cuts it off while `size_of` still counts it.
* **C17** acorn() counts sets without parent. acorn() equals the number of sets that have no parent.
  * in `Verif/UnionFind/Exact.lean`, `Verif/UnionFind/Props.lean`
  * `C17_exact`: **C17 (exact)**: the number of sets without a parent is `disjoint()`, and `acorn()` equals it exactly as long as no two different sets were joined.
  * `C17_iff`: **C17 (exact)**, over all histories.
  * `C17_acorn_partial`: `acorn()` is the number of sets ever created; it is the number of sets without a parent as long as no two different sets were joined. After a successful join it is too large: `C17_counterexample`.
  * `C17_counterexample`: the claim fails after one join: three sets, one of them with a parent, `acorn() = 3`.
* **C18** union_find over elements is connectivity. For element-keyed calls (insert, join_sets, same_set, find_by_elem, size_of(elem)): insert returns true iff the element is new, same_set is connectivity under the join_sets performed, join_sets returns true iff it merged two classes, size_of is the class size and disjoint() the number of classes.
  * in `Verif/UnionFind/Props.lean`
  * `C18_elements`: element-keyed calls on `union_find_t`. In every reachable object (elements `K`, joined pairs `E`): `insert` returns true iff the element is new, `same_set` is connectivity, `join_sets` returns true iff it merged two classes, `find_by_elem` is canonical (`not_found` for absent elements), `size_of` is the class size and `disjoint()` the number of classes.
* **C19** union_find set-id calls accept exactly the existing set ids. find(id), join(id1,id2), same(id1,id2) and size_of(id) treat an id as valid iff it is the id of an existing set, and never access out of bounds.
  * in `Verif/UnionFind/Exact.lean`, `Verif/UnionFind/Props.lean`
  * `C19_exact`: **C19 (exact)**: `find(id)` and `size_of(id)` are right for an id (found iff the set exists, no access out of bounds) exactly when the look-up of the id among the *keys* gives the same answer as the existence of the set; so `C19_ids_partial` cannot be extended to a single further id.
  * `C19_ids_partial`: the calls by set id behave as specified when the existence test (which looks the *id* up as a key) happens to agree with the existence of the set, e.g. when the elements are their own ids. Otherwise they reject valid ids or access out of bounds: `C19_counterexample`.
  * `C19_counterexample`: the claim fails: with elements 10, 20, 30 (`T` = an integer type) the existing set 0 is "not found" and has size 0, and the id 10 of no set is accepted and read out of bounds.
* **C20** LRU cache never exceeds its capacity. After every operation size() <= capacity().
  * in `Verif/Cache/Props.lean`
  * `C20_capacity`: the size never exceeds the capacity.
* **C21** LRU cache behaves as a recency list. Starting from construction, any sequence of add/find/[]/remove/clear/set_capacity/clip behaves, for every observer (contains, values, size, most_recent, least_recent, last_operation, clipped), like an abstract duplicate-free list of keys ordered by recency; the internal map and list never disagree and no dangling iterator is used.
  * in `Verif/Cache/Props.lean`
  * `C21_refines`: every history of calls behaves like the abstract recency list: same outputs, same observations, and it is undefined exactly where the abstract cache is (an `operator[]` of an absent key at capacity 0, see C25).
* **C22** LRU find promotes and preserves order. find(k) reports whether k is cached; if so k becomes the most recent and the relative order of all other keys is unchanged; if not, nothing changes.
  * in `Verif/Cache/Props.lean`
  * `C22_find`: `find(k)` reports whether `k` is cached; if so `k` becomes the most recent key and the others keep their order; if not, nothing changes.
* **C23** LRU eviction order and on_discard. When adding or shrinking overflows the capacity, exactly the least recently used keys are removed, on_discard is called once for each in least-recent-first order, and clipped() is their number; remove and clear never call on_discard.
  * in `Verif/Cache/Props.lean`
  * `C23_eviction`: on overflow exactly the least recent keys go, `on_discard` is called once for each, least recent first, and `clipped()` counts them; `remove`, `clear` and `find` discard nothing.
* **C24** LRU content characterised by the access history. With fixed capacity and a history of operator[] accesses, the cache holds exactly the (at most capacity) most recently accessed distinct keys, most recent first.
  * in `Verif/Cache/Props.lean`
  * `C24_history`: with capacity `cap ≥ 1` and a history `ks` of `operator[]` accesses (any repetitions), every access returns its key, and the cache holds exactly the `cap` most recently accessed distinct keys, most recent first.
* **C25** LRU operator[] returns the requested key. cache[k] returns a reference to an element equal to k, which is now the most recent one.
  * in `Verif/Cache/Props.lean`
  * `C25_access_partial`: `cache[k]` returns `k`, now the most recent element, whenever the capacity is at least 1. At capacity 0 it dereferences a singular iterator: `C25_counterexample`.
  * `C25_counterexample`: the claim fails for every reachable cache of capacity 0 and every key.
* **C26** LRU copies are independent and fully usable. A copied cache has the same contents as the original and every operation on either is well defined and does not affect the other.
  * in `Verif/Cache/CopyExact.lean`, `Verif/Cache/Props.lean`
  * `C26_exact`: **C26, exactly**: a history of calls on a copy is defined, and then answers as specified, as long as it does not call `find`, `operator[]` or `remove` with a key that has been in the copy since it was made; the first such call is undefined. Copied keys become usable again when they are discarded, or cleared, and added again.
  * `C26_copy_partial`: a copy shows the same contents, and histories of calls that do not follow stored iterators (`add`, `clip`, `set_capacity`, `clear`) behave as specified on it. The copy of an empty cache is fully usable. Missing: `find`, `remove` and `operator[]` of any copied key are undefined: `C26_counterexample`.
  * `C26_counterexample`: the claim fails for every non-empty reachable cache: on its copy, `find`, `operator[]` and `remove` of any copied key use iterators into the original's list.
* **C27** LRU moved cache takes over the contents. After moving a cache, the destination behaves exactly like the source did and the source is empty and usable.
  * in `Verif/Cache/Props.lean`
  * `C27_move`: after a move the destination behaves like the source did under every later history, and the source is empty, keeps its capacity and is fully usable.
* **C28** LRU remove accepts references obtained from the cache. remove(k) removes k if present, also when k is a reference returned by the cache itself (most_recent(), least_recent(), *begin()).
  * in `Verif/Cache/Props.lean`
  * `C28_remove_partial`: `remove(k)` of a value removes `k` if present and keeps the others in order; `find`, `operator[]` and `add` also accept references into the cache. Missing: `remove` with such a reference reads freed memory, always (`C28_counterexample`).
  * `C28_counterexample`: the claim fails for every element of every reachable cache: `remove` of a reference to it (e.g. `most_recent()`) reads the freed node.
* **C29** LRU last_operation reports insertion/removal. After add(k) last_operation() is true iff k was absent; after remove(k) it is true iff k was present; add of a present key changes neither contents nor order.
  * in `Verif/Cache/Props.lean`
  * `C29_last`: `last_operation()` after `add` and `remove`; `add` of a present key changes neither contents nor order.
* **C30** AVL tree stays sorted. In every reachable avl_tree_t the in-order sequence of values is sorted (strictly when duplicates were never enabled).
  * in `Verif/Avl/Props.lean`
  * `C30_sorted`: every history runs without UB, and the in-order values are sorted; strictly if duplicates were never enabled.
* **C31** AVL tree is a set. With duplicates disabled, contains(x) is true iff x was inserted and not removed since; insert returns true iff x was absent; remove returns true iff x was present.
  * in `Verif/Avl/Props.lean`
  * `C31_set`: with duplicates disabled throughout, `contains x` is true iff the last call concerning `x` inserted it; the next `insert x` returns true iff `x` is absent and the next `remove x` iff it is present.
* **C32** AVL tree with duplicates is a multiset. With duplicates enabled every insert adds one occurrence, remove removes exactly one occurrence if any, remove_all removes all and returns how many.
  * in `Verif/Avl/Props.lean`
  * `C32_multiset`: every history (duplicates switched on and off at will) returns exactly what a multiset returns, and afterwards `contains` and the in-order multiplicities agree with it.
* **C33** AVL size() is the number of elements. size() equals the number of nodes in the tree.
  * in `Verif/Avl/Props.lean`
  * `C33_size`: `size()` is the number of nodes (modulo 2^64).
* **C34** AVL stays balanced under insertions. With duplicates disabled and no removals, at every node the two subtree heights differ by at most one, so height() is logarithmic in size().
  * in `Verif/Avl/Props.lean`
  * `C34_insert_balanced`: with duplicates disabled and no removals (insertions and `clear`), every node is balanced and `height() ≤ 2·log2(n + 1) + 1` for `n` elements.
* **C35** AVL stays balanced under removals. After any sequence of insert and remove the two subtree heights differ by at most one at every node.
  * in `Verif/Avl/BalanceExact.lean`, `Verif/Avl/Props.lean`
  * `C35_exact`: **C35, exactly:** a removal from a balanced tree, reached by any history, destroys the balance if and only if on the way back up some subtree becomes two levels less deep than its sibling, the two subtrees of the sibling are equally deep, and the far subtree of the inner one is two levels less deep than these. The height after the removal is as given.
  * `C35_counterexample`: the claim is false: with the left child's two subtrees equally deep the code uses the double rotation.
  * `C35_remove_balanced_partial`: from any balanced state, reached by any history, one more `insert` (duplicates off) keeps balance, and one more `remove` either keeps balance and lowers the height by at most one, or leaves the height unchanged at ≥ 4 with imbalances of at most two. So trees of height at most 3 stay balanced. Missing: balance after removals from higher trees, which fails (`C35_counterexample`).
* **C36** AVL stays balanced with duplicates. With duplicates enabled, after any insertions the two subtree heights differ by at most one at every node.
  * in `Verif/Avl/BalanceExact.lean`, `Verif/Avl/Props.lean`
  * `C36_exact`: **C36, exactly:** with duplicates enabled, an insertion into a balanced tree, reached by any history, destroys the balance if and only if on the way back up some right child has the inserted value, has a left subtree, and grew though it was the deeper child already.
  * `C36_counterexample`: the claim is false: six equal values.
  * `C36_duplicates_balanced_partial`: with duplicates enabled, from any balanced state reached by any history, inserting a value that is not in the tree keeps balance. Missing: inserting a value already present, which can fail (`C36_counterexample`).
* **C37** AVL height() is the real height. height() equals the number of nodes on the longest root-to-leaf path.
  * in `Verif/Avl/Props.lean`
  * `C37_height`: `height()` is the number of nodes on the longest path, and so is every stored height, after every history (including unbalanced trees).
* **C38** AVL left_most/right_most are min and max. On a non-empty tree left_most() and right_most() hold the smallest and the greatest value.
  * in `Verif/Avl/Props.lean`
  * `C38_extrema`: on a non-empty tree `left_most()`/`right_most()` are the least and the greatest contained value; on an empty tree they dereference null.
* **C39** AVL copy is equal and fully functional. A copied tree has the same values, shape, size() and height() as the original, and later insertions keep it balanced.
  * in `Verif/Avl/CopyExact.lean`, `Verif/Avl/Props.lean`
  * `C39_exact`: exactly as the code behaves, for every tree `a` that calls on a new tree lead to and any target `dst`. The copy and the assigned tree really have the depth of the source, but a non-empty one reports the height 1, which is right if and only if no node has a child. An assignment takes over the elements of the source if and only if the source has some or the target had none; otherwise the target keeps its elements and reports 0 of them.
  * `C39_counterexample`: the claim is false: the copy of {1, 2} says height 1.
  * `C39_counterexample_balance`: One insertion into a copy of a perfect tree loses balance.
  * `C39_counterexample_empty`: Assigning an empty tree keeps the old nodes while `size()` becomes 0.
  * `C39_copy_partial`: a copy made from any reachable tree has the same values, shape, `size()` and duplicates flag, correct parent links, and every later history on it behaves like the multiset from the source's contents; copy assignment from a non-empty tree likewise. Missing: `height()` and balance (all copied heights are 1), and assignment from an empty tree.
* **C40** AVL move leaves an empty tree. After moving from an AVL tree the destination has all elements and the source has none and size() 0.
  * in `Verif/Avl/Props.lean`
  * `C40_counterexample`: the claim is false: the source keeps its `size()`.
  * `C40_move_partial`: the destination becomes exactly the source (so later histories on it continue the source's), and the source contains nothing. Missing: the source's `size()`, which keeps its old value.
* **C41** AVL parent() is the real parent. For every node of the tree, parent() is the node whose left() or right() it is; the root has no parent.
  * in `Verif/Avl/Props.lean`
  * `C41_counterexample`: the claim is false: after inserting 1..6 node 3 hangs under 2 but still names 4.
  * `C41_parent_partial`: after every history the root has no parent, and in every copy of a reachable tree all parents are right. Missing: inner subtrees moved by a rotation, whose parent link is stale (`C41_counterexample`).
* **C42** Binary in_order visits every node in order. in_order with a callback that never stops calls it once per node in left-node-right order and returns the number of nodes; on an AVL tree the values come out sorted.
  * in `Verif/Nary/Props.lean`
  * `C42_in_order`: with a callback that never stops, `in_order` calls it once per node in left-node-right order and returns the number of nodes; on every reachable AVL tree the values come out sorted.
  * `C42_in_order_sorted`
* **C43** Binary pre_order and pos_order visit every node once. pre_order / pos_order with a non-stopping callback call it once per node in node-left-right / left-right-node order and return the number of nodes; pos_order ignores the callback's result.
  * in `Verif/Nary/Props.lean`
  * `C43_pre_pos_order`: `pre_order` with a callback that never stops and `pos_order` with any callback (its result is ignored) visit every node once in their order and return the number of nodes.
  * `C43_nary`: for n-ary nodes.
* **C44** depth_first_search is a stoppable pre-order. depth_first_search calls the predicate on the nodes in pre-order up to and including the first one for which it returns true, and returns the number of calls.
  * in `Verif/Nary/Props.lean`
  * `C44_dfs`: `depth_first_search` calls the predicate on the nodes in pre-order up to and including the first for which it returns true, and returns the number of calls.
  * `C44_dfs_binary`: for binary trees (`children()` = left, right): without a stop the order is the binary pre-order.
* **C45** breadth_first_search is a stoppable level order. breadth_first_search calls the predicate on the nodes level by level, left to right, up to and including the first one for which it returns true, and returns the number of calls.
  * in `Verif/Nary/Props.lean`
  * `C45_bfs`: `breadth_first_search` calls the predicate level by level, left to right, up to and including the first node for which it returns true, and returns the number of calls.
  * `C45_all_visited`: Every node is visited exactly once by either search when the predicate never holds.
* **C46** Recursive traversals stop at the node for which the callback returns true. in_order / pre_order: if the callback returns true the search ends at this node, i.e. it is not called again.
  * in `Verif/Nary/Props.lean`, `Verif/Nary/StopExact.lean`
  * `C46_counterexample`: the claim is false: `in_order` goes on after the stop at 1.
  * `C46_counterexample_pre`: The same for `pre_order`.
  * `C46_stop_partial`: what a true result does: in `in_order` it hides the node's right subtree, in `pre_order` its children; the returned number is always the number of calls. At the root this is the documented stop: in `in_order` no call follows the one on the root, in `pre_order` it is the only one. Missing: stopping the whole search from an inner node, which the code does not do (`C46_counterexample`).
  * `C46_exact`: exactly: with a callback that depends on the node only, `in_order` ends with the first true result iff that result came from a node of the right spine (or from none), and `pre_order` iff every node behind that node is below it.
* **C47** tree_node child slots obey the limit. Starting from a fresh node, after any sequence of add_child, insert_at, insert_at_first_null, delete_child, extract_child, clear (and replace_at within the limit) the node has at most max_node_size slots, and each call's result says exactly whether it had an effect: add_child/insert_* return true iff one child was added, extract_child returns a node iff one child was taken out, delete_child returns true iff one slot was removed; otherwise nothing changes.
  * in `Verif/Nary/Props.lean`
  * `C47_slots`: from a fresh node, every sequence of calls (with `replace_at` inside the limit) runs without UB and leaves at most `max` slots; all children are distinct nodes whose parent is this node; and the next call's result says exactly what it did (`Effect`).
* **C48** replace_at outside the limit is a no-op. replace_at(position, child) with position >= max_allowed_children() changes nothing and returns nullptr.
  * in `Verif/Nary/Props.lean`
  * `C48_counterexample_all`: the claim is false on every reachable node and every such position: the write is out of bounds.
  * `C48_counterexample`
  * `C48_replace_at_partial`: inside the limit `replace_at` never leaves the vector; it puts the new child at the position, returns the old child, if any, detached from its parent, and touches no other slot. Missing: positions outside the limit (UB, `C48_counterexample_all`).
* **C49** tree_node slot operations frame. insert_at/replace_at/extract_child/delete_child affect only the addressed slot (delete_child shifts later slots left by one), find returns the first slot holding the value, children_count the number of non-null slots, child(pos) throws exactly for missing or null slots.
  * in `Verif/Nary/Props.lean`
  * `C49_frame`: the slot operations change only the addressed slot (`delete_child` shifts later slots), and the observers read the slots as documented (for vectors smaller than 2^64).
  * `C49_first_last`: `first`/`last` return the first/last child, and throw exactly when there is none.
* **C50** n-ary in_order visit counts. in_order on an n-ary tree with a non-stopping callback visits every node: a node without slots once, a node with one slot once, a node with k>=2 slots k-1 times (between consecutive children); the returned number is the number of nodes.
  * in `Verif/Nary/Props.lean`
  * `C50_in_order`: with a callback that never stops, `in_order` visits a node without slots once, a node with one slot once after it, and a node with k ≥ 2 slots between consecutive slots (k − 1 times), and returns the number of nodes.
  * `C50_between_length`: How often the owner is visited by `between`, besides the visits inside the slots.
  * `C50_all_visited`: Every node is visited.
* **C51** n-ary in_order stops when asked. if the callback returns true during in_order of an n-ary tree, it is not called again.
  * in `Verif/Nary/Props.lean`, `Verif/Nary/StopExact.lean`
  * `C51_counterexample`: the claim is false: the result on a node without slots is ignored.
  * `C51_stop_partial`: the calls end with the first one that returns true on a node that has slots. Missing: true results on nodes without slots, which are ignored (`C51_counterexample`).
  * `C51_exact`: exactly: the calls of `in_order` of an n-ary tree end with the first true result iff the node that gave it has slots, or no call follows anyway.
* **C52** Copying an n-ary tree. Copy construction/assignment of a tree_t over tree_node_t yields an independent tree: each node is owned and destroyed exactly once.
  * in `Verif/Nary/Props.lean`
  * `C52_counterexample_all`: the claim is false for every tree with at least one child: the child nodes are shared and deleted twice.
  * `C52_counterexample`
  * `C52_copy_partial`: a root without children (or no root) is copied independently. Missing: trees with children.
* **C53** Tree copy assignment makes the target equal to the source. after a = b the tree a has exactly the nodes of b, for every previous content of a, including empty b and self assignment, and the previous nodes of a are released.
  * in `Verif/Nary/Props.lean`
  * `C53_counterexample`: the claim is false: assigning an empty tree keeps the old nodes.
  * `C53_counterexample_self`: Self assignment replaces the whole tree by one default node.
  * `C53_counterexample_leak`: The old nodes are never released.
  * `C53_assign_partial`: assignment from another, non-empty tree gives the values and shape of the source, a root without parent and right parent links. Missing: empty source, self assignment, and releasing the old nodes.
* **C54** binary_node copy and move. copy assignment of a binary_node deep-copies values and shape with correct parent links among the copied nodes; move assignment transfers the children and leaves the source without children.
  * in `Verif/Nary/Props.lean`
  * `C54_counterexample`: the claim is false: self assignment drops the children (and a source below the target is read after it was freed).
  * `C54_counterexample_below`
  * `C54_node_assign_partial`: with a source outside the target's subtree, copy assignment deep-copies value and shape with right parent links below the target, which keeps its own parent; move assignment transfers value and children, sets the children's parent to the target and leaves the source without children and without parent. Missing: self assignment and sources below the target (`C54_counterexample`, `C54_counterexample_below`).
* **C55** Segment tree range query after build. After building from a non-empty vector, query(a,b) returns the left-to-right join of the (built) elements in the clamped inclusive range [min(a,b), max(a,b)], for every associative join (commutativity not needed).
  * in `Verif/Seg/Props.lean`
  * `C55_query`: after building any tree object (also one used before) from a non-empty vector, `query(a,b)` returns the left-to-right join of the built elements in the clamped range.
* **C56** Segment tree stays inside its heap. Build, query and query_update only touch heap cells below the allocated 4*size cells and terminate.
  * in `Verif/Seg/Props.lean`, `Verif/Seg/PropsFloat.lean`
  * `C56_in_bounds`: for every transform whose `apply`/`propagate` keep the bounds and index of the nodes, every history that starts by building from a non-empty vector runs to completion without leaving the heap (no UB, no exception), and building a new tree allocates exactly the computed number of cells, which later queries do not change.
  * `C56_exact`: The allocation in exact arithmetic, `4 n` cells, is roomy: the tree of `n` elements uses the heap indices below `top n 1`.
  * `C56_float`: the allocation `ceil(pow(2.0, log2(size) + 2))` leaves enough room whenever the computed power `p n` is accurate to one part in `2^33`. IEEE doubles carry 53 bits, and the rounding of `log2(size) + 2 ≤ 66` costs at most 7 of them.
  * `C56_float_in_bounds`: histories with the floating-point allocation.
* **C57** Segment tree lazy range updates. For a transform whose apply/propagate are lawful (an update acts on a segment value like acting on each element; propagate pushes it to both children), after any sequence of query and query_update calls every query returns the join of the elements with all updates applied pointwise in order.
  * in `Verif/Seg/Props.lean`
  * `C57_lazy`: for every lawful transform, after building and any sequence of queries and updates (and rebuilds from non-empty vectors), every call returns the join of the clamped range of the elements with all updates applied pointwise in order.
  * `C57_addSum_lawful`: Adding to a range with sum queries is lawful.
  * `C57_assignCat_lawful`: Assigning to a range with a non-commutative join, never composing marks (`criteria` false), is lawful.
* **C58** Segment tree query_update returns the new range value. query_update(a,b,u) returns the value a query(a,b) right after it returns; argument order of bounds is irrelevant.
  * in `Verif/Seg/Props.lean`
  * `C58_update_value`: `query_update(a,b,u)` returns what a `query(a,b)` right after it returns, in every state reached by a history; the order of the bounds does not matter.
* **C59** Segment tree without updates. With the default empty_update_t, query_update changes nothing and returns the range value; queries never change later answers.
  * in `Verif/Seg/Props.lean`
  * `C59_no_updates`: when no update "is" an update (`empty_update_t`), every history of queries and updates after a build answers from the built elements alone; only associativity of `join` is needed.
* **C60** Segment tree unbuilt access throws; rebuild replaces contents. query/query_update on a never built tree throw heap_not_built_exception_t; after rebuild(v) all answers refer to v only, also when v is empty or smaller or larger than before.
  * in `Verif/Seg/EmptyRebuild.lean`, `Verif/Seg/Props.lean`
  * `C60_exact`: exactly: let a tree be built from a non-empty vector, used in any way, and then rebuilt from an empty one. As long as all later bounds are below the old size, queries and updates answer as if the second `rebuild` had not happened; the first one with a bound that is not is undefined (instead of clamped).
  * `C60_counterexample`: the claim is false: after `rebuild({})` the old sum is still reported, and out-of-range bounds are no longer clamped.
  * `C60_counterexample_ub`: Reading past the old elements after `rebuild({})` is undefined.
  * `C60_rebuild_partial`: a tree that was never built throws; after rebuilding ANY tree object (whatever it went through) from a non-empty vector, all later answers are those of the new elements only. Missing: rebuilding from an empty vector a tree that was built before (`C60_counterexample`).
* **C61** heap_t index arithmetic. parent_of(left_child_of(p)) = parent_of(right_child_of(p)) = p; children of different positions are different; every position but 0 is the child of exactly its parent.
  * in `Verif/Heap/Props.lean`
  * `C61_index`: parents of children, injectivity, and every position but 0 is a child of exactly its parent.
  * `C61_positions`: the positions themselves.
  * `C61_no_wrap`: the `size_t` arithmetic computes these values as long as the child position is representable.
* **C62** heap_t swaps exchange exactly two elements. swap(pos) exchanges the element with its parent's, swap_with_left_child/right_child with the child if it exists; nothing else changes and doing it twice restores the heap.
  * in `Verif/Heap/Props.lean`
  * `C62_swap`: `swap` exchanges a position with its parent (throwing outside the heap, doing nothing at 0), `swap_with_*_child` with that child if it exists; nothing else changes.
  * `C62_involution`: swapping twice restores the heap.
* **C63** heap_t set_left / set_right store the value. set_left(pos,v) / set_right(pos,v) make the left/right child of pos equal to v, growing the heap when needed.
  * in `Verif/Heap/Props.lean`
  * `C63_counterexample_all`: the claim is false exactly when the child position equals the size: the call throws `std::out_of_range`.
  * `C63_counterexample`
  * `C63_set_partial`: for every other position the child is stored, all old elements stay, and new cells are defaults. Missing: the child position equal to the size.
* **C64** command manager undo/redo round trip. After store(c), undo() returns c and redo() returns it again; undo with nothing stored returns nullptr.
  * in `Verif/Command/Exact.lean`, `Verif/Command/Props.lean`
  * `C64_exact`: exactly as the code behaves. If `store` returned (`run false`), a history on a new manager would be undefined if and only if some `undo` comes after a `store`; otherwise every `store` returns its command and every `undo` and `redo` returns `nullptr`, so no command ever comes back. As written (`run true`) a history is undefined if and only if it stores a command at all.
  * `C64_counterexample`: the claim is false: `store` flows off its end.
  * `C64_counterexample_undo`: Even with a return statement in `store`, `undo` with something stored pops an empty deque, in every reachable state.
  * `C64_counterexample_return`
  * `C64_nothing_partial`: with nothing stored `undo` and `redo` return `nullptr` and change nothing; `redo` always returns `nullptr` (nothing ever reaches the redo list) and `dispose` deletes nothing. Missing: undo and redo of a stored command, which the code does not do.
* **C65** command manager bounded history and single deletion. At most 1024 commands are kept, the oldest are deleted first, and every stored command is deleted at most once and exactly once after destruction.
  * in `Verif/Command/Props.lean`
  * `C65_counterexample`: the claim is false as written because `store` has no return statement.
  * `C65_history_partial`: if `store` returned, then in every history (with any `undo`/`redo`/`dispose` that is defined) the manager keeps exactly the last 1024 stored commands, has deleted the older ones oldest first, and after destruction exactly the stored commands were deleted: each once if they were distinct. Missing: the missing return statement (`C65_counterexample`).
  * `C65_stores_partial`: Storing always completes in the version with a return statement.
* **C66** find_missing_arithmetic_in_sorted: a reported value is the missing one. For an arithmetic progression with exactly one element removed, if the function returns {true,v} then v is the removed element.
  * in `Verif/Seqs/PropsMissing.lean`
  * `C66_sound`: whatever `find_missing_arithmetic_in_sorted` reports for a progression with one element removed is the removed element.
* **C67** find_missing_arithmetic_in_sorted always finds the missing element. For every arithmetic progression with exactly one inner element removed the function returns it; for a complete progression it returns {false, lower}; no element outside [first,last) is read.
  * in `Verif/Seqs/PropsMissing.lean`, `Verif/Seqs/PropsMissingExact.lean`
  * `C67_counterexample_late`: the claim fails: an inner element missing from the last quarter is *never* found; the search dereferences an iterator at or past `last`.
  * `C67_counterexample_complete`: the claim fails: a complete progression of three or more elements always makes the search run past `last`.
  * `C67_counterexample`: the claim fails: `1 2 3 4 _ 6 7 8` throws `invalid_sequence_t` although 5 is missing, `1 2 3 4 _ 6` reads past the end.
  * `C67_find_partial`: the part that holds. For a progression with an inner element missing: the function never answers "complete"; it finds the element when there are at most four elements, and when the missing position is the first or second one probed by a search that starts to the right; a missing first element is always found; a single element is reported complete. Missing: the other positions (`C67_counterexample_late`, `C67_counterexample`); `C67_exact` says which of them are found.
  * `C67_exact`: exactly: when `n` elements are left of a progression whose inner position `k` is missing, the element is found if and only if the search looks at position `k` within `n` rounds, without leaving the sequence before; the search reads beyond the end if and only if it leaves the sequence before; and otherwise, if it goes back and forth without meeting `k`, it throws.
* **C68** find_missing_geometric_in_sorted (integers): a reported value is the missing one. For a geometric progression with exactly one element removed, if the function returns {true,v} then v is the removed element.
  * in `Verif/Seqs/PropsMissing.lean`
  * `C68_sound`: whatever the integer `find_missing_geometric_in_sorted` reports for a progression of nonzero integers with one element removed is the removed element.
* **C69** find_missing_geometric_in_sorted always finds the missing element. For every geometric progression with exactly one inner element removed the function returns it, reading only elements in [first,last).
  * in `Verif/Seqs/PropsMissing.lean`, `Verif/Seqs/PropsMissingExact.lean`
  * `C69_counterexample_two`: the claim fails for every progression of three elements with the middle one missing: two elements are left and `*next(mid)` dereferences `last`.
  * `C69_counterexample_late`: the claim fails: an element missing from the last quarter is never found.
  * `C69_counterexample`: the claim fails on concrete input: `1 2 4 8 16 _ 64`…
  * `C69_find_partial`: the part that holds: the missing inner element is found whenever three to eight elements are left, and, for any length of at least three, when it is at or right after the middle (or is the first element). Missing: the other positions of longer sequences, see `C69_counterexample_late`; `C69_exact` says which of them are found.
  * `C69_exact`: exactly: when `n` elements are left of a progression whose inner position `k` is missing, the element is found if and only if the search looks at position `k` or `k - 1` within `n` rounds, before it looks at the last position or one beyond; if it comes to the end exactly it answers that nothing is missing, if it comes to another such position it reads beyond the end, and if it does none of this in `n` rounds it throws.
* **C70** find_missing_sequential_range. If the range is any permutation of lower..lower+n with one value missing, the function returns {true, that value}; for an empty range {false,0}.
  * in `Verif/Seqs/PropsXor.lean`
  * `C70_missing`: if the range is, in any order, `lower, …, lower+n` with the `k`-th of them missing (and these values, and one more, fit the type), `find_missing_sequential_range` returns the missing value; an empty range gives `{false, 0}`.
  * `C70_empty`
  * `C70_signed`: for the default `int`: the returned bits, read as a signed number, are the missing number.
* **C71** find_not_common_element. If the first range is, in any order, the second range plus one extra element, (or the reverse with a non-empty first range) the function returns that element.
  * in `Verif/Seqs/PropsXor.lean`
  * `C71_first`: the element that one of the two ranges has more than the other.
  * `C71_second`
  * `C71_empty`: An empty first range is dereferenced: the precondition of `C71_second` is needed.
* **C72** find_non_repeated_element. If every value but one occurs an even number of times and that one an odd number of times, the function returns it.
  * in `Verif/Seqs/PropsXor.lean`
  * `C72_non_repeated`: the one value that occurs an odd number of times.
  * `C72_empty`: An empty range is dereferenced.
* **C73** max_length_of_sum returns the length of a matching subarray. If max_length_of_sum returns n > 0 there is a contiguous subarray of length n with the required sum; if no subarray matches it returns 0.
  * in `Verif/Seqs/PropsSubarray.lean`
  * `C73_sound`: a positive answer is the length of a subarray with the required sum, and the answer is 0 exactly when no non-empty subarray has it.
* **C74** max_length_of_sum is the longest. max_length_of_sum returns the length of the longest contiguous subarray with the required sum.
  * in `Verif/Seqs/PropsSubarray.lean`
  * `C74_counterexample`: the claim fails: in `3 1 1 1` the subarray `1 1 1` has sum 3 and length 3, the function answers 1. The prefix sum that equals the required sum is not entered in `first_occurrence`.
  * `C74_longest_partial`: the part that holds: for a required sum of 0 the answer is the greatest length, and for any required sum it is positive as soon as some subarray matches and never too large. Missing: the greatest length for required sums other than 0, see `C74_counterexample`.
  * `C74_exact`: exactly as the code behaves: the answer is the greatest length of a matching subarray that begins at a start (0 if there is none); matching subarrays that directly follow a matching subarray which begins at a start are overlooked.
  * `C74_separate_partial`: a further part that holds: if no matching subarray directly follows another matching subarray, the answer is the greatest length. Missing: sequences with two adjacent matching subarrays, see `C74_exact` for what is computed then.
* **C75** max_sum_of is the greatest subarray sum. max_sum_of returns the greatest sum of a non-empty contiguous subarray, and 0 for the empty sequence.
  * in `Verif/Seqs/MaxSum.lean`, `Verif/Seqs/PropsSubarray.lean`
  * `C75_exact`: exactly: the answer is right iff the first element is not positive, or some subarray behind the first element reaches at least the sum of every beginning of the sequence with the first element counted twice.
  * `C75_counterexample`: the claim fails for every sequence that starts with a positive number alone: `max_sum_of` of `[x]` is `2x`, because the loop starts again at `first` after `current_max` has been initialised with `*first`.
  * `C75_doubled_partial`: exactly as the code behaves: the answer is the greatest subarray sum of the sequence whose first element, if positive, is doubled.
  * `C75_max_partial`: the part that holds: the empty sequence, sequences whose first element is not positive, and, always, an upper bound of every subarray sum. Missing: sequences whose first element is positive, for which `C75_doubled_partial` says what is computed.
* **C76** sum_of_subsets counts subsets. sum_of_subsets(first,last,s) returns the number (modulo 2^64) of index subsets whose elements add up to s.
  * in `Verif/Seqs/PropsSubset.lean`
  * `C76_count`: `sum_of_subsets` is well defined and returns the number of subsets modulo `2^64`, whichever operand of the sum is evaluated first.
  * `C76_exact`: without the modulus: sequences shorter than 64 elements have fewer than `2^64` subsets.
* **C77** sum_of_subsets cache reuse. Calls sharing one cache object for the same sequence, with arbitrary sums and start positions in arbitrary order, return the same numbers as calls with a fresh cache.
  * in `Verif/Seqs/PropsSubset.lean`
  * `C77_shared`: calls that share one memo, for the same sequence but with arbitrary sums and start positions, all return what a call with a fresh memo returns.
  * `C77_short`: the precondition is needed: a memo with fewer rows than the sequence is indexed out of bounds.
* **C78** gcd is the greatest common divisor. gcd(a,b) terminates and returns the greatest common divisor of a and b (gcd(0,0)=0).
  * in `Verif/Tools/PropsMath.lean`
  * `C78_gcd`: `gcd` returns the greatest common divisor (and terminates: it is a total function).
  * `C78_greatest`: without reference to the library's gcd.
  * `C78_no_overflow`: no intermediate value leaves the 64-bit range.
* **C79** divisors_of lists the proper divisors. divisors_of(n) contains every d with 1<d<n that divides n exactly once and nothing else; with sorting it is increasing.
  * in `Verif/Tools/PropsFloat.lean`, `Verif/Tools/PropsMath.lean`
  * `C79_ieee`: for the code as written, with `square` computed by the conversion to double, `std::sqrt` and the conversion back: for every 64-bit `n` the result lists exactly the divisors other than 1 and `n`, each once, in increasing order when asked.
  * `C79_divisors`: `divisors_of n` lists every divisor `d` of `n` with `1 < d < n`, exactly once, and nothing else; with sorting it is strictly increasing.
* **C80** Variadic arithmetic functors. sum_t / multiplication_t / minimum_t / maximum_t applied to any number of arguments return the sum / product / least / greatest argument.
  * in `Verif/Tools/PropsMath.lean`
  * `C80_sum`: the variadic sum and product, in any (semi)ring, are the sum and product of the arguments.
  * `C80_product`
  * `C80_minimum`: the variadic minimum / maximum is one of the arguments and bounds all of them.
  * `C80_maximum`
* **C81** enum from_string inverts to_string. from_string(to_string(v)) = v for every v in [minimum,maximum) when names are distinct; any other string yields maximum.
  * in `Verif/Tools/PropsMath.lean`
  * `C81_inverse`: with distinct names `from_string` inverts `to_string` on `[minimum, maximum)`.
  * `C81_unknown`: a string that is no name in the range yields `maximum`.
  * `C81_first`: with repeated names: the first value with that name.
* **C82** custom delimiter tokenisation. Reading a stream imbued with custom_delimiter_t<Filter> yields exactly the maximal runs of characters accepted by Filter.
  * in `Verif/Tools/PropsText.lean`
  * `C82_tokens`: reading words from a stream imbued with `custom_delimiter_t<Filter>` yields exactly the maximal runs of characters accepted by the filter.
* **C83** CSV reading round trip. Reading a file whose lines are the separator-joined fields of rows (within the descriptor width, fields free of separator and newline, last field of a row non-empty) gives back exactly those rows after skipping start_offset lines.
  * in `Verif/Tools/PropsText.lean`
  * `C83_round_trip`: a file of `start_offset` arbitrary lines followed by rows whose fields are joined by the separator is read back exactly: the field texts returned are the fields of the rows, every field has the type of its column, and the number of a numeric column is the one its text stands for. Preconditions: fields contain neither separator nor newline, the last field of a row is not empty, no row is wider than the descriptor, and fields of numeric columns are numbers.
  * `C83_trailing_empty`: the precondition on the last field is needed: a trailing empty field is lost.
* **C84** CSV typed getters. get_int()/get_double() return the parsed value of the text of the field, whatever the descriptor type of the column.
  * in `Verif/Tools/CsvExact.lean`, `Verif/Tools/PropsText.lean`
  * `C84_exact`: exactly as the code behaves, for a text that says the numbers `i` and `d`. `get_int` gives `i` if and only if the column is one of integers, or one of doubles on a platform on which `static_cast<int>(nan)` happens to be `i`. `get_double` gives `d` if and only if the column is one of integers, or one of doubles on a platform that defines that conversion. A field made without a column type gives `d` if the conversion is defined, and `i` if and only if it is the value of the conversion.
  * `C84_counterexample`: the claim fails for text columns: both getters read uninitialised members.
  * `C84_counterexample_all`
  * `C84_counterexample_double`: the claim fails for double columns: `static_cast<int>(nan)` is undefined; on a platform that gives it the value `v` (`INT_MIN` on x86), `get_int` returns `v` whatever the text says, because `std::isnan` of an `int` is never true.
  * `C84_getters_partial`: the part that holds: integer columns (both getters), and `get_double` of double columns and of fields made by the one-argument constructor on platforms that define the conversion of `nan`. Missing: text columns, and `get_int` of double columns, see the counterexamples.
* **C85** CSV rows longer than the descriptor. A row with more fields than the descriptor stops reading: exactly the rows before it are returned; shorter rows are returned as they are.
  * in `Verif/Tools/PropsText.lean`
  * `C85_prefix`: for any file contents, as long as the fields convert, the rows returned are those of the lines after the offset, up to (excluding) the first line with more fields than the descriptor; shorter rows are kept as they are.
  * `C85_text`: for descriptors of text columns only: no condition on the fields.
  * `C85_long`: nothing after the first line that is too long is looked at: its contents are arbitrary.
  * `C85_throws`: a field that is not a number in a numeric column makes the call throw (the rows read so far are lost).
* **C86** next_random stays in range. next_random(start,end) returns a value between start and end inclusive.
  * in `Verif/Tools/PropsText.lean`
  * `C86_in_range`: when `end` fits both the generator's `result_type` and `int_type`, every value produced by `next_random` is in `[start, end]`. On the modelled platform (`uint_fast32_t` and `unsigned long` of 64 bits) this is every `end`.
  * `C86_onto`: every value of the range is produced by some generator output.
  * `C86_narrow`: the preconditions are needed: where `result_type` has 32 bits, `next_random(2^32, 2^32 + 5)` yields values below 6; a negative `start` converted to `unsigned long` exceeds `end` and the distribution is undefined.
* **C87** next_random_string length and alphabet. next_random_string(n,set) has exactly n characters, all from set (printable ASCII when set is empty).
  * in `Verif/Tools/PropsText.lean`
  * `C87_string`: `next_random_string(n, set)` has `n` characters, all from `set`, or printable ASCII when `set` is empty.
* **C88** Semaphore never over-allocates. With a fixed number of resources, count() never exceeds it and at most that many threads are between a returned lock()/successful try_lock() and their unlock().
  * in `Verif/Conc/SemProps.lean`
  * `C88_limit`: while no change of the number of resources has taken effect, `_count` never exceeds it.
  * `C88_holders`: while no change of the number of resources has taken effect, and if no thread called `unlock` more often than it acquired, at most `n` threads hold a resource: acquired one by a returned `lock` or a successful `try_lock` and have not called `unlock` since.
* **C89** Semaphore unlock never underflows. count() equals successful acquisitions minus effective unlocks and unlock on a free semaphore has no effect.
  * in `Verif/Conc/SemProps.lean`
  * `C89_count`: whenever the mutex is free, `_count` is the number of acquisitions minus the number of effective unlocks.
  * `C89_returned`: what `count()` returns is the number of acquisitions minus the number of effective unlocks so far.
  * `C89_free`: an `unlock` is effective exactly when some resource is allocated; otherwise it changes nothing.
* **C90** Semaphore try_lock is exact and non blocking. try_lock succeeds iff count() < max_count() at its atomic step, and never blocks.
  * in `Verif/Conc/SemProps.lean`
  * `C90_exact`: `try_lock` succeeds exactly when fewer resources are allocated than available at the point of the log where it takes effect.
  * `C90_returns`: `try_lock` never blocks: once it has the mutex it returns after at most four of its own steps, whatever the others do not do; the mutex is all it waits for.
  * `C90_never_waits`: a thread in `try_lock` moves only between the steps of `try_lock`, it never joins the waiting threads.
* **C91** Semaphore waiters are not lost. Whenever a resource is free, every thread blocked in lock() can still acquire it by its own timed wake-up, even if notifications went to other threads or were lost.
  * in `Verif/Conc/SemProps.lean`
  * `C91_acquires`: whenever a resource is free and the mutex is free, a thread blocked in `wait_for` acquires the resource by its own timed wake-up, without any notification.
  * `C91_mutex_released`: the mutex never stays locked: its owner leaves the critical section after at most five of its own steps.
  * `C91_one_notified`: The timeout is what makes C91 true: raising the resources from 1 to 3 with two threads waiting wakes one of them; the other sleeps on next to a free resource until its timeout.
* **C92** Semaphore changing resources. set_available_resources changes only the limit: holders keep their resources, no acquisition happens while count() >= the current limit, lock() throws out_of_resources_exception iff the limit is 0 when it starts.
  * in `Verif/Conc/SemProps.lean`
  * `C92_atomic`: every run of the semaphore, whatever the interleaving and the changes of the limit, is explained by a run of the atomic semaphore with the same observations, and the members agree with it whenever the mutex is free.
  * `C92_set`: `set_available_resources` changes only the limit.
  * `C92_acquire`: no acquisition takes effect while the count has reached the limit in force.
  * `C92_throw`: `lock` throws only when the limit is 0 at its check, passes the check only when it is not, and a thread that passed the check returns from `lock` before anything else: it does not throw later.
* **C93** Message queue delivers FIFO, exactly once. Without discard_messages the sequence of messages handed to on_new_message is always a prefix of the sequence of messages received (in the order of insertion into the queue); none is duplicated, reordered or invented.
  * in `Verif/Conc/QueueProps.lean`
  * `C93_fifo`: without `discard_messages`, the messages handed to `on_new_message` are always a prefix of the messages received: the rest are the message the worker is about to handle and the contents of the queue, in order.
* **C94** Message queue stop processes all earlier messages. Every message received before stop() was called is processed before the thread ends (no discard).
  * in `Verif/Conc/QueueProps.lean`
  * `C94_counterexample`: the claim fails: the message is never processed.
  * `C94_processed_partial`: the part that holds, for every container: when the thread ended and nothing was discarded, everything received before the worker's last emptiness test was processed, exactly once; only messages received after that test are left over. Missing: messages received after the last emptiness test but before `stop`, see the counterexample.
  * `C94_only_stop`: the worker ends only after `stop` was called.
  * `C94_progress`: as long as `stop` was not called and nothing is to be discarded, the started worker, by its own steps and timeouts alone, processes every message received so far; the mutex of the queue is all it can wait for.
* **C95** Message queue discard. discard_messages removes only messages that were never processed; processed messages are a subsequence of the received ones in order, and every received message is processed, discarded or still queued, exactly one of them.
  * in `Verif/Conc/QueueProps.lean`
  * `C95_partition`: for every container, every received message is, exactly once, processed, discarded, in the hands of the worker or still queued.
  * `C95_order`: with a FIFO container the processed messages are a subsequence of the received ones, in order.
  * `C95_only_asked`: nothing is discarded unless `discard_messages` was called.
* **C96** Message queue never pops an empty queue. The worker never calls front/top/pop on an empty queue.
  * in `Verif/Conc/QueueProps.lean`
  * `C96_never_empty`: the worker never takes a message from an empty container.
* **C97** Message queue lifecycle. on_start is called once before the first message, on_stop once after the last one; no message is handled outside this window, and run() when already running throws.
  * in `Verif/Conc/QueueProps.lean`
  * `C97_lifecycle`: in every run, `on_start` is called once, before any message is handled, and `on_stop` once, after the last one; a new run begins only after the previous one ended.
  * `C97_never_throws`: a worker never finds the queue already running, so it never throws.
  * `C97_twice`: `run()` entered while the queue is running throws before any callback.
* **C98** Message queue with a priority queue. With a heap-like queue, each processed message was a greatest one among those queued at that moment.
  * in `Verif/Conc/QueueProps.lean`
  * `C98_greatest`: with a heap ordered by `lt`, the message taken at any moment is not less than any of those then in the container, i.e. of those received and neither processed nor discarded before.
  * `C98_taken`: what is processed is what was taken, in that order; at most the last one taken is still in the hands of the worker.
* **C99** pointer_comparison is a strict weak order. pointer_comparison orders non-null pointers exactly as transform_t orders the pointees and is a strict weak order whenever transform_t is.
  * in `Verif/Conc/QueueProps.lean`
  * `C99_lifts`: `pointer_comparison` orders pointers as the pointees are ordered, and is a strict weak order when the order of the pointees is.
* **C100** thread_t exit code life cycle. exit_code() is NOT_STARTED before start(), NOT_FINISHED while run() executes, and run()'s result afterwards; is_running() is true exactly in between (for results of run() other than NOT_FINISHED itself); join/destructor wait for run(). In the moment between the return of run() and the end of the thread either value may be seen.
  * in `Verif/Conc/Thread.lean`
  * `C100_observed`: the exit code and `is_running`, whenever and by whomever they are read, are right for the phase the thread is in (for a thread that is not started again before it is joined).
  * `C100_join_waits`: `join` and the destructor return only after `run` has returned and its result has been stored.
* **C101** Timer stop() stops the timer. After start() followed by stop(), on_interval is eventually not called any more and join() returns.
  * in `Verif/Conc/TimerExact.lean`, `Verif/Conc/TimerProps.lean`
  * `C101_exact`: **C101, exactly:** a `stop` of a started timer can be undone by the thread, without a new `start`, if and only if it clears the flag before the thread has set it or between the load and the store of line 139.
  * `C101_counterexample_all`: the claim fails, for every interval, as badly as possible: `stop` called before the thread sets `_is_running` is lost, any number of calls of `on_interval` follow, and the timer still runs.
  * `C101_counterexample`
  * `C101_counterexample_store`: The second window: `_is_running = _is_running && …` reads the flag, `stop` clears it, the thread writes it back.
  * `C101_stops_partial`: the part that holds: a `stop` whose store hits neither window is never undone. Whatever happens afterwards short of a new `start`, the flag stays cleared and `on_interval` is called at most once more; and whenever the mutex is not held by a client, the thread can run to its end by itself, within 38 steps, so `join` returns. Missing: the two windows, see the counterexamples.
* **C102** Timer does not fire early. Without notify(), with a constant interval and a system clock that is not set forward, on_interval is never called earlier than the interval after the previous call (or after the start).
  * in `Verif/Conc/TimerProps.lean`
  * `C102_never_early`: without `notify` and `set_interval`, and with a wall clock that is never set forward, no call of `on_interval` comes earlier than the interval after the end of the previous call, or after the start; whatever spurious wake-ups and delays there are, and however `duration_cast` rounds.
  * `C102_forward`: the proviso about the clock is needed. When the system clock is set forward while the timer sleeps, a spurious wake-up makes it fire at once.
* **C103** Timer stops on failure and reports it. When on_interval returns a value other than EXIT_SUCCESS, it is not called again and that value becomes the exit code; timer_t maps a false callback to EXIT_FAILURE.
  * in `Verif/Conc/TimerProps.lean`
  * `C103_failure`: after a call of `on_interval` that did not return EXIT_SUCCESS there is no further call in that run, and `run` returns the value of the last call.
  * `C103_ends`: and the run ends: from the moment the failure is returned, the thread reaches its end by itself.
  * `C103_callback`: `timer_t` returns EXIT_SUCCESS exactly when its callback returned true.
* **C104** Timer lifecycle callbacks. on_start is called once before any on_interval, and on_stop is called once when the timer stops.
  * in `Verif/Conc/TimerProps.lean`, `Verif/Conc/TimerStops.lean`
  * `C104_counterexample`: the claim fails: both `stop` and the end of `run` call `on_stop`.
  * `C104_counterexample_overlap`: moreover the `on_stop` of `stop` is not protected by the mutex, it can run while `on_interval` is executing.
  * `C104_thread_partial`: the part that holds: the callbacks of the thread itself come in the required order, `on_start` exactly once in each run before the first `on_interval`, `on_stop` exactly once after the last; either may be missing only when the object is being destroyed. Missing: the additional `on_stop` of every `stop`.
  * `C104_count_partial`
  * `C104_exact`: exactly: as long as no destructor has marked the object, the callback `on_stop` has been called, whenever the thread is between two runs, once for each run and once more for each call of `stop` that got to its callback; and the calls of `stop` by a client that cleared `_is_running` all got there, except for the one the client is executing now. So `on_stop` was called exactly once per run precisely when every call of `stop` so far is still about to make its callback.
* **C105** Fenwick update with a value read from the tree. update(p, tree[q]) combines element p with the value tree[q] had at the time of the call.
  * in `Verif/Fenwick/Alias.lean`, `Verif/Fenwick/Props.lean`
  * `C105_exact`: **C105, exactly:** `update(p, tree[q])` adds the value `v` that `tree[q]` had if and only if `v = 0`, or the update does not modify cell `q`, or it modifies no cell after `q`; otherwise all cells modified after `q` get `v + v`.
  * `C105_update_alias_partial`: Full claim: `update(p, tree[q])` adds the value that `tree[q]` had when the call was made. Proved when cell `q` is not one of the cells that the update of `p` modifies. Missing: `q` among them, for which the claim is false because the argument is a reference into the array (`C105_counterexample`).
  * `C105_counterexample`: the claim fails: on `[1,1,1,1]`, `update(1, tree[1])` also changes element 2.
* **C106** Fenwick set_value on a product tree. set_value(p,v) on a multiplication tree makes query(p,p) equal to v.
  * in `Verif/Fenwick/Props.lean`
  * `C106_exact`: exactly as the code behaves, for a valid position: with a zero at or before `p` the call divides by zero; otherwise it succeeds, and afterwards element `p` is the old one times the truncated quotient (unchanged if that is 0).
  * `C106_product_set_value_partial`: Full claim: `set_value p v` on a product tree makes element `p` equal to `v`. Exactly when it holds: the elements before and at `p` are nonzero, `v ≠ 0` and the old element divides `v`. Missing: the other cases, for which the claim is false (`C106_counterexample`, `C106_exact`).
  * `C106_counterexample`: the claim fails: `set_value(1, 3)` on `[2]` leaves 2, `set_value(1,0)` on `[2]` leaves 2, and `set_value(1,7)` on `[0]` divides by zero.
* **C107** find_missing_geometric_in_sorted (floating point) finds the missing element. For a geometric progression with exactly one inner element removed, if the jump left by it exceeds float_error, the floating point overload returns {true, the removed element}; whatever it reports is the removed element.
  * in `Verif/Seqs/PropsGeomF.lean`
  * `C107_sound_partial`: soundness: on an exact geometric progression with one element removed, whatever is reported is the removed element (any tolerance `err ≥ 0`).
  * `C107_counterexample_left`: the claim fails: the test `*mid <= expected + err || *mid >= expected - err` is always true, the search only ever moves right, and an element missing from the left half is never found, whatever the progression.
  * `C107_counterexample`
  * `C107_find_partial`: the part that holds: a missing element at, or right after, the middle is found if its absence leaves a jump larger than the tolerance; so is a missing first element. Missing: the other positions; `C107_exact` says what happens there.
  * `C107_exact`: exactly: of a progression of five elements or more, a missing element whose absence leaves a jump larger than the tolerance is found at four positions only, at and after the half and at and after three quarters. For all others, five, six, seven and nine elements are reported to be complete, and from longer sequences the function reads past the end.
* **C108** Semaphore is free of data races. No two threads access a member of the semaphore at the same time without a common lock, one of them writing.
  * in `Verif/Conc/SemProps.lean`
  * `C108_counterexample`: the claim fails: `max_count` reads `_available_resources` without the mutex, next to `set_available_resources`.
  * `C108_races_partial`: the part that holds: every race involves `max_count` and `set_available_resources`; all other operations access the members under the mutex only. Missing: `max_count` without the mutex, see the counterexample.
  * `C108_exact`: **C108, exactly:** the semaphore is raced for if and only if one thread is about to read in `max_count` while another is about to write in `set_available_resources`.
* **C109** Message queue is free of data races. The container and the running flag of the queue are never accessed by two threads at the same time without a common lock, one of them writing.
  * in `Verif/Conc/QueueEnds.lean`, `Verif/Conc/QueueProps.lean`
  * `C109_exact`: **C109, exactly:** the races are these two: the emptiness tests of lines 143 and 153 against a client that inserts, and the stores of `_running` in lines 140 and 158 against `is_running()`.
  * `C109_counterexample`: the claim fails: the worker evaluates `_queue.empty()` without the mutex of the queue, here while a client inserts.
  * `C109_counterexample_running`: the claim fails also for `_running`, a plain `bool`: `is_running()` reads it while the worker writes it.
  * `C109_races_partial`: the part that holds: clients never race with each other, and a client races with the worker only in the two ways of the counterexamples. Missing: the two unprotected reads.
* **C110** Message queue can be started again. After a stopped run the queue can be started again and the new run goes on until stop() is called again.
  * in `Verif/Conc/QueueEnds.lean`, `Verif/Conc/QueueProps.lean`
  * `C110_exact`: **C110, exactly:** a queue that is started, for the first time or again, ends by itself, without any client doing anything more, if and only if `stop` was called at any time before, be it in an earlier run or before the first.
  * `C110_counterexample`: the claim fails: `_stopped` is never reset, the second run ends at once.
  * `C110_first_partial`: the part that holds: no run ends before the first call of `stop`. Missing: the second and later runs.
* **C111** thread_t can be started again and destroyed at any time. No sequence of start(), join() and destruction leads to std::terminate or to a call of the pure virtual run().
  * in `Verif/Conc/Thread.lean`, `Verif/Conc/ThreadExact.lean`
  * `C111_counterexample`: the claim fails: starting again a thread that has finished, but was not joined, calls `std::terminate`.
  * `C111_counterexample_destroy`: the claim fails: a started object may be destroyed before the new thread reaches `run`; `~thread_t` joins too late.
  * `C111_careful_partial`: the part that holds: an owner who joins before starting again and before destroying is safe. Missing: any other order.
  * `C111_start_exact`: **C111, exactly, for `start`:** it ends the program if and only if the thread was started before and has not been joined since.
  * `C111_dtor_exact`: **C111, exactly, for the destructor:** a pure virtual function can be called after it if and only if the thread was started and has not yet entered `run`.
* **C112** thread_t is free of data races. exit_code() and is_running() never read the exit code while the thread writes it.
  * in `Verif/Conc/Thread.lean`, `Verif/Conc/ThreadExact.lean`
  * `C112_counterexample`: the claim fails for every observer that does not join first.
  * `C112_joined_partial`: the part that holds: before `start` and after `join` there is no race. Missing: the time in between.
  * `C112_exact`: **C112, exactly:** `_exit_code` is raced for between the return of `run` and the end of the thread, as long as the object exists.
  * `C112_always`: the object always exists then, unless the thread was started twice: every return of `run` is a race with every observer.
* **C113** Timer is free of data races. The interval is never read by the timer thread while another thread writes it.
  * in `Verif/Conc/TimerExact.lean`, `Verif/Conc/TimerProps.lean`
  * `C113_exact`: **C113, exactly:** there is a race if and only if a client is about to write the interval while the thread is about to read it: at the beginning of `run` (line 127) or when it computes the remaining time (lines 140, 143-144).
  * `C113_reached`: **C113:** each of these moments is reached while a client is about to write.
  * `C113_counterexample`: the claim fails: `set_interval` writes `_interval_ms` while `run` reads it.
  * `C113_races_partial`: the part that holds: `set_interval` is needed for a race. Missing: `set_interval` on a started timer.
* **C114** Timer notify() is not lost. After notify() the request stays pending until on_interval is called.
  * in `Verif/Conc/TimerExact.lean`, `Verif/Conc/TimerProps.lean`
  * `C114_exact`: **C114, exactly:** a `notify` can be forgotten before any further call of `on_interval` if and only if it is set while `on_interval` is being executed, or has just returned.
  * `C114_counterexample`: the claim fails: a `notify` during `on_interval` is wiped out by the assignment after the call.
  * `C114_pending_partial`: the part that holds: a `notify` that does not come during `on_interval` stays pending until the next call of `on_interval`, and the next time the thread wakes up it makes that call. Missing: a `notify` during the call.
* **C115** Message queue size() and empty() answer correctly. size() returns the number of messages inserted and not yet taken out for processing or dropped at the moment it answers, empty() whether that number is zero.
  * in `Verif/Conc/QueueObs.lean`
  * `C115_observers`: whatever the threads do, `size()` returns the number of messages inserted and not yet taken out or dropped at the moment it answers, and `empty()` whether there is none.
* **C116** AVL trees are memory safe. Any program that uses any number of AVL trees (member calls, copies, moves, self-assignments, destructions) accesses no null pointer and no deleted node, deletes nothing twice and returns from every call; every pointer in a tree leads to an allocated node and no node is reachable in two ways.
  * in `Verif/Mem/Props.lean`
  * `C116_memory_safe`: every program over any number of trees (calls, copies, moves, also to itself, destructions) runs without UB: no null pointer or deleted node is accessed, nothing is deleted twice, every call returns. Every pointer in a tree leads to an allocated node, and no node is reachable in two ways (in one tree or in two).
* **C117** AVL trees do not leak. Every node that was allocated and not deleted is reachable from a tree; when all trees are gone no node is left.
  * in `Verif/Mem/Props.lean`
  * `C117_counterexample`: the claim fails: `a = b` with a non-empty `a` leaks the nodes of `a`.
  * `C117_counterexample_move`: the claim fails: `a = std::move(b)` with a non-empty `a` leaks the nodes of `a`.
  * `C117_counterexample_self`: the claim fails: `a = a` leaks the whole tree.
  * `C117_counterexample_self_move`: the claim fails: `a = std::move(a)` leaks the whole tree.
  * `C117_exact`: exactly when it fails: a node is lost at the end if and only if some assignment overwrote a non-empty tree (by a non-empty one, or by a move).
  * `C117_lost_for_ever`: a node that is lost stays lost: no later operation frees it or brings it back.
  * `C117_no_leak_partial`: the part that holds: if every assignment goes to a tree that is empty at that time (which includes all constructions) or copies an empty one, every allocated node is reachable from a tree, and when all trees are empty no node is left. Missing: the other assignments, all of which lose nodes (`C117_exact`).
* **C118** AVL trees are independent values. Any program over any number of AVL trees behaves as if each were an independent multiset, copied and moved as a value: results, contents and counters agree.
  * in `Verif/Mem/Props.lean`
  * `C118_counterexample`: the claim fails: a tree that was moved from is empty, but `size()` still returns the old number.
  * `C118_counterexample_self_move`: the claim fails: `a = std::move(a)` empties the tree.
  * `C118_counterexample_empty`: the claim fails: `a = b` with an empty `b` leaves the values in `a`.
  * `C118_counterexample_self`: the claim fails: `a = a` replaces all values of the tree by one default value.
  * `C118_independent_partial`: the part that holds: without self-assignment and without copying an empty tree to a non-empty one, all results and contents agree, and so do the counters of all trees that were not moved from (since they were last cleared or assigned). Missing: those two kinds of assignment, and the counters of trees moved from.
  * `C118_reading_unique`: The reading is unique, so the contents of a tree are determined.
* **C119** AVL insert, remove and contains accept references into a tree. insert, remove and contains called with a reference to a value stored in a live node, also of the same tree, do what they do with a copy of the value.
  * in `Verif/Mem/Props.lean`
  * `C119_insert`: `insert`, called with a reference to the value of any live node (also of the same tree), does what it does with a copy of the value.
  * `C119_remove`: the same for `remove`, though it may overwrite or delete the node that the reference points to.
  * `C119_contains`: the same for `contains`.
* **C120** AVL remove_all accepts references into the tree. remove_all called with a reference to a value stored in a live node does what it does with a copy of the value.
  * in `Verif/Mem/Props.lean`
  * `C120_undefined`: the claim fails for every tree of at least two values without duplicates, and every node of it: after some rounds of the loop, each of which removes a value (the wrong one from the second round on), the node is deleted, and the next round reads the value of the deleted node.
  * `C120_counterexample`: the claim fails: on a tree with the values 1 and 2, `t.remove_all(t.root().get())` reads a deleted node.
  * `C120_other_tree_partial`: the part that holds: the node belongs to another tree. Missing: the nodes of the tree itself, where `C120_undefined` shows that the call is UB.
* **C121** AVL tree height stays logarithmic. The height of an AVL tree is at most a constant times the logarithm of its number of elements, after any insertions and removals.
  * in `Verif/Avl/Degenerate.lean`
  * `C121_counterexample_linear`: the claim fails as badly as possible: for every `m` there is a history of `8 + 41·m` insertions and removals after which the tree has `m + 8` elements and height `m + 4`; it is a linked list but for the last eight elements.
  * `C121_counterexample`: the claim fails for every constant.
  * `C121_insertions_partial`: the part that holds: without removals (and without duplicates) the depth is at most `2·log2(n + 1) + 1`. Missing: histories with removals.
* **C122** Plain binary tree programs are memory safe. Any program over any number of plain binary trees (adding, copying, moving and assigning nodes and whole trees, writing values, destroying trees) that names existing nodes accesses no null pointer and no deleted node, deletes nothing twice and returns from every call.
  * in `Verif/Mem/BinProps.lean`
  * `C122_counterexample`: the claim fails: `n = n.left()` deletes the left child before reading it.
  * `C122_counterexample_ancestor`: the claim fails: `n.left() = n` copies for ever.
  * `C122_undefined_iff`: exactly when it fails: a program is UB if and only if it comes to an assignment of a node from a proper descendant (copy or move), or to a copy assignment from a proper ancestor, and both nodes exist.
  * `C122_copy_diverges`: copying from a proper ancestor does not end, however many calls are allowed.
  * `C122_memory_safe_partial`: the part that holds: a program without such assignments ends without UB, every pointer in a tree leads to an allocated node, and no node is reachable in two ways. Missing: the assignments of `C122_undefined_iff`, which are UB.
* **C123** Plain binary tree programs compute the assigned contents. After node and tree assignments each tree holds what assignment of independent values would give: the target has the value and the children of the source, everything else is unchanged.
  * in `Verif/Mem/BinProps.lean`
  * `C123_counterexample`: the claim fails: `n = n` for a node deletes its children.
  * `C123_counterexample_tree`: the claim fails: `t = t` for a tree replaces it by one node.
  * `C123_counterexample_empty`: the claim fails: `t = u` with an empty `u` leaves `t` as it is.
  * `C123_contents_partial`: the part that holds: node assignments are between separate nodes, trees are not assigned to themselves, and empty trees are not copied to non-empty ones. Missing: the other assignments (see the counterexamples and C122).
  * `C123_unique`: What hangs at a pointer is determined.
* **C124** Plain binary tree nodes know their parent. After every program parent() of each reachable node is the node it hangs under, and the root has none.
  * in `Verif/Mem/BinProps.lean`
  * `C124_counterexample`: the claim fails: `u.root() = std::move(t.root().left())` leaves the moved-from node in `t`, without a parent.
  * `C124_parent_partial`: the part that holds: node assignments are between separate nodes, and only roots are moved from. Missing: moving from a node that is not a root, which the counterexample shows to fail, and the assignments of C122.
* **C125** Plain binary trees do not leak. Every node that was allocated and not deleted is reachable from a tree; when all trees are gone no node is left.
  * in `Verif/Mem/BinProps.lean`
  * `C125_counterexample`: the claim fails: `t = u` with a non-empty `t` leaks the nodes of `t`.
  * `C125_counterexample_cycle`: the claim fails: `n.left() = std::move(n)` makes a cycle of nodes that no tree contains.
  * `C125_exact`: exactly when it fails, for the programs that run to their end (C122): a node is lost at the end if and only if some operation assigned a tree to a non-empty tree (other than by copying an empty tree) or moved a node to a proper descendant.
  * `C125_lost_for_ever`: a node that is lost stays lost: no safe operation frees it or brings it back.
  * `C125_no_leak_partial`: the part that holds: node assignments are between separate nodes, and trees are assigned to other, empty trees only. Missing: the other assignments (`C125_exact` says which of them lose nodes).
* **C126** add_root, add_left and add_right accept references into the tree. add_root, add_left and add_right called with a reference to a value stored in a live node, also of the same tree, do what they do with a copy of the value.
  * in `Verif/Mem/BinProps.lean`
  * `C126_undefined`: the claim fails for every node of the tree itself: the node is deleted before its value is read.
  * `C126_counterexample`
  * `C126_other_partial`: the part that holds: the node is not in the tree that gets the new root. Missing: the nodes of that tree, where `C126_undefined` shows that the call is UB.
  * `C126_add_child`: `add_left` and `add_right` may be given a reference to any live value.
* **C127** Timer is not late. While the system clock is not set back and the interval is constant, on_interval is called at latest the interval after the previous call (or the start), plus the time the timer thread spent awake or oversleeping.
  * in `Verif/Conc/TimerLate.lean`
  * `C127_not_late_partial`: Full claim: `C127_statement`, that the call is due after the interval and the time the thread was awake. Proved: at most a millisecond per wake-up without timeout more; so the full claim holds for intervals without wake-up. Missing: intervals with such wake-ups, for which the claim is false (`C127_counterexample`).
  * `C127_undisturbed_partial`: The same for intervals without wake-up, as in the full claim.
  * `C127_timeout`: when the time is over and the timer has not been stopped, the thread calls `on_interval`, in four steps of its own, unless a client holds the mutex.
  * `C127_counterexample_all`: the claim fails, for every interval and without any bound: woken often enough, a thread that loses no time never calls `on_interval`. Any amount of time `T` passes after the start.
  * `C127_counterexample`
* **C128** Timer stop() and notify() wake the thread. Once stop() has notified, the timer thread does not sleep again unless a notification for it is under way; the same after notify() until the next call of on_interval.
  * in `Verif/Conc/TimerWake.lean`
  * `C128_stop_partial`: `stop`. Full claim: `C128_stop_statement`. Proved: it holds for every notification that does not come between the thread's test of `_is_running` and its falling asleep. Missing: that moment, for which the claim is false (`C128_stop_exact`).
  * `C128_stop_exact`: exactly, for `stop`: as long as no client holds the mutex, the notification is lost if and only if it comes between the test of the flag and the sleep; then the thread goes to sleep for the whole remaining time.
  * `C128_stop_counterexample`: the claim fails for `stop`: the thread sleeps for an hour although the timer has been stopped; `join` and the destructor wait for it.
  * `C128_notify_partial`: `notify`. Full claim: `C128_notify_statement`. Proved: it holds when the thread is asleep at that moment, or has woken up and has not yet tested the request. Missing: the rest of the loop, for which the claim is false (`C128_notify_counterexample`).
  * `C128_notify_counterexample`: the claim fails for `notify`: a request that comes just before the thread falls asleep is served an hour later.
* **C129** N-ary tree programs are memory safe. Any program over any number of n-ary trees, their nodes and owning pointers (adding, inserting, replacing, extracting and deleting children, assigning nodes and trees, destroying them) accesses no null pointer, no deleted node and no slot outside a vector, deletes nothing twice and returns from every call.
  * in `Verif/NMem/Props.lean`
  * `C129_counterexample`: the claim fails: a copy of a tree of two nodes, and both trees are destroyed.
  * `C129_counterexample_node`: the claim fails: `a = b` for two children of one node, where `b` has a child; then the tree is destroyed.
  * `C129_counterexample_replace`: the claim fails: `replace_at` at the maximum writes outside the vector.
  * `C129_memory_safe_partial`: the part that holds: a program that copies no nodes or trees with children, except to themselves or to nodes above, and uses `replace_at` below the maximum only. It ends without UB, every pointer leads to an allocated node, and no node is reachable in two ways. Missing: the other copies and uses of `replace_at`, which are UB sooner or later (see `C129_assign_fatal`, `C129_copy_fatal` and `C129_replace_fatal`).
  * `C129_assign_fatal`: when a node with children is copied to a node that is not the same and not above, then the destruction of the two variables, with nothing between, is UB.
  * `C129_copy_fatal`: when a tree whose root has children is copied to another tree, then the destruction of the two trees is UB.
  * `C129_replace_fatal`: `replace_at` at or beyond the maximum is UB at once, for every node.
* **C130** N-ary tree programs compute the assigned contents. The results of every call and the contents of every tree and owning pointer are those of the same program over immutable trees that are copied and moved as values.
  * in `Verif/NMem/Props.lean`
  * `C130_counterexample`: the claim fails: a change of a copy of a tree changes the original.
  * `C130_counterexample_self`: the claim fails: `n = std::move(n)` loses the children of the node.
  * `C130_counterexample_tree`: the claim fails: `t = t` for a tree replaces it by an empty node.
  * `C130_counterexample_empty`: the claim fails: `t = u` with an empty `u` leaves `t` as it is.
  * `C130_contents_partial`: the part that holds: besides the condition of C129, no node is moved to itself, no tree is copied to itself, and no empty tree is copied to a non-empty one. Missing: these assignments (see the counterexamples) and those of C129.
  * `C130_unique`: What a variable holds is determined.
* **C131** N-ary tree nodes know their parent. After every program parent() of each reachable node is the node it hangs under; roots and extracted nodes have none.
  * in `Verif/NMem/Props.lean`
  * `C131_counterexample`: the claim fails: `t.root() = u.root().child(0)` copies the parent too.
  * `C131_counterexample_move`: the claim fails: `t.root() = std::move(u.root().child(0))` as well.
  * `C131_counterexample_dangling`: the claim fails: children that are moved with their node keep the node they came from as parent, which may be destroyed.
  * `C131_parent_partial`: the part that holds: nodes are assigned (copied or moved) only from childless siblings, or root from childless root. Missing: the other assignments (see the counterexamples).
* **C132** N-ary trees do not leak. Every node that was allocated and not deleted is reachable from a tree or an owning pointer; when all are gone no node is left.
  * in `Verif/NMem/Props.lean`
  * `C132_exact_partial`: exactly when it fails, for the programs of C129: something is lost at the end if and only if some statement copied a node to another one with children, or moved a node to one with children or to one below, or copied a non-empty tree to a non-empty one, or moved a tree to a non-empty one.
  * `C132_lost_for_ever`: what is lost stays lost: no safe program finds it again or deletes it.
  * `C132_counterexample`: the claim fails: `t = std::move(u)` with a non-empty `t` leaks the nodes of `t`.
  * `C132_counterexample_node`: the claim fails: `n = std::move(m)` leaks the children of `n`.
* **C133** N-ary nodes keep to their maximum. No node ever has more than max_node_size child slots, and every number up to that can be reached.
  * in `Verif/NMem/Props.lean`
  * `C133_max`: no node ever has more than `max_node_size` slots, whatever the program does (the condition of C129 is not needed).
  * `C133_tight`: The bound is reached.
* **C134** Message queue can be destroyed while running. Destroying an object of a class derived from message_queue_t at any moment calls no pure virtual function and interrupts no callback; when the object is gone its thread has ended.
  * in `Verif/Conc/QueueDestroy.lean`
  * `C134_counterexample`: does not hold: the queue has been stopped, and destroying it still calls the pure virtual `on_new_message`.
  * `C134_counterexample_torn`: nor is a callback that is being executed waited for before the members it works on are destroyed.
  * `C134_joined`: the destructor waits for the thread in any case: when the object is gone there is no thread inside `run`, the container is empty, and no step of any thread can touch the object.
  * `C134_safe_delete_partial`: the part that holds: if the destructor of the derived class begins with `safe_delete`, then whatever the threads do, before and during the destruction, no pure virtual function is called and no callback is interrupted by the destruction.
  * `C134_exact`: exactly: let the derived class have just been destroyed without `safe_delete`, and let nobody use the queue any more. The pure virtual `on_new_message` can be called, in some order of the remaining steps, if and only if the worker holds a message or will look at one that waits.
  * `C134_empty_partial`: in particular a queue that is empty when the derived class is destroyed, whose worker holds no message and that nobody uses any more, is destroyed safely even without `safe_delete`.
  * `C134_ends`: `safe_delete` in the destructor of the derived class comes to an end, however many messages are waiting: once it has been called and nobody uses the queue any more, steps of the worker and of the owner lead to the end of the object.
* **C135** Timer can be destroyed while running. Destroying a timer at any moment calls no pure virtual function and interrupts no callback; when the object is gone its thread has ended.
  * in `Verif/Conc/TimerDestroy.lean`
  * `C135_counterexample`: does not hold for the library's `timer_t`: `stop` has returned, and destroying the timer still leads to a call of the pure virtual `on_interval`.
  * `C135_counterexample_torn`: nor is `on_interval` waited for before what it works on is destroyed; for `timer_t` that is the `std::function` being executed.
  * `C135_joined`: the destructor waits for the thread in any case: when the object is gone there is no thread inside `run`, and no step of the thread, of the owner or of a client can touch the object.
  * `C135_safe_delete_partial`: the part that holds: if the destructor of the derived class begins with `safe_delete`, then whatever the threads do, before and during the destruction, no pure virtual function is called and no function of the derived class is interrupted.
  * `C135_joined_before_partial`: a timer that has not been started, or whose thread has ended (`stop(true)` has returned), is destroyed safely even without `safe_delete`.
  * `C135_exact`: exactly: let the derived class have just been destroyed without `safe_delete`, and let nobody but the destructor use the timer any more. The pure virtual `on_interval` can be called, in some order of the remaining steps, if and only if the thread has been started and has not yet met, in its loop, a cleared `_is_running`. In particular a timer whose thread has not yet set `_is_running` cannot be destroyed safely, even if it has been stopped.
  * `C135_hang`: even a derived class that calls `safe_delete` may not be destroyed properly: if the thread has not yet set `_is_running` the stop is lost, and the destructor waits for ever, whatever happens, as long as `on_interval` reports success and nobody stops the timer once more.
* **C136** AVL trees used through their base class are memory safe. A program that uses AVL trees both through their own functions and through those of their base class and its nodes accesses no null pointer and no deleted node, deletes nothing twice, returns from every call and loses no node.
  * in `Verif/Mem/Mixed.lean`
  * `C136_counterexample`: the claim fails as C122 does: a node is assigned from its child.
  * `C136_undefined_iff`: exactly when a program is UB: it comes to a node assignment from a proper descendant, or to a copy from a proper ancestor, and both nodes exist. The functions of `avl_tree_t` themselves are never UB, whatever was done to the values, the shape and the stored heights through the base class.
  * `C136_memory_partial`: the part that holds: without such assignments every program ends without UB, every pointer in a tree leads to an allocated node, no node is reachable in two ways, and a node is lost if and only if an assignment overwrote a non-empty tree or moved a node to a proper descendant. Missing: the assignments of `C136_undefined_iff`, and those that lose nodes.
* **C137** AVL trees used through their base class keep their promises. The values stay in order, size() is their number and contains finds exactly them, whatever is done through the base class.
  * in `Verif/Mem/Mixed.lean`
  * `C137_counterexample`: the claim fails: after `t.add_root(5)` the tree has one value and `size()` is 0.
  * `C137_counterexample_wrap`: the claim fails: the counter wraps around: `t.add_root(5); t.remove(5)` leaves an empty tree with `size()` 2^64 - 1.
  * `C137_counterexample_order`: the claim fails: after `set_value` on the root a value is in the tree that `contains` does not find and `remove` does not remove, and that `insert` adds once more though duplicates are disabled.
  * `C137_call_partial`: the part that holds: as long as the values of tree `k` are in order, whatever its shape, its heights and its counter became through the base class, every call works as on the multiset of its values: `contains` finds exactly them, the result and the new values are right and in order, the other trees do not change, and the counter changes by as much as the number of values (after `clear` it is right). Missing: trees out of order, and the counter itself, if the base class was used to change them.
  * `C137_ordered_partial`: only the base class can bring trees out of order: if every operation of the base class leaves all trees in order, they are in order at the end. Missing: as above.
* **C138** Tree traversals allow callbacks that change the tree. A traversal of a binary or AVL tree accesses no null pointer and no deleted node, whatever its callback does to the trees, and returns the number of its visits.
  * in `Verif/Mem/WalkProps.lean`
  * `C138_counterexample`: the claim fails: `t.insert(1); t.in_order([&](const auto& n) { t.remove(n.get()); return false; })` reads the deleted node.
  * `C138_counterexample_others`: the claim fails for `pre_order` and both searches with the same callback, also if it answers true for the searches.
  * `C138_counterexample_pos`: the claim fails for `pos_order`: the callback clears the tree when it is called with a leaf.
  * `C138_counterexample_sibling`: the claim fails for a callback that deletes another node than the visited one: a search has already queued it.
  * `C138_local_partial`: the part that holds: a callback may add nodes, delete nodes and change values below the node it is called with, and the callback of `pos_order` may at last delete that node through its parent. The traversal is not UB, it returns the number of its visits, and all pointers in the trees lead to allocated nodes afterwards. Missing: callbacks that change other parts of the trees.
  * `C138_ends_partial`: if the callback adds no nodes either: the traversal ends, and it visits only nodes of the tree, each at most once.
  * `C138_endless`: a local callback that adds nodes may keep the traversal going forever: `pre_order` with a callback that calls `add_left` on its node does not end.
* **C139** Traversals visit every node once while values change. A traversal whose callback only changes values (set_value, swap), of any nodes of any trees, and never stops it, ends, visits every node of the tree exactly once in the order of the traversal, returns their number and leaves the nodes and shape of all trees.
  * in `Verif/Mem/WalkOrder.lean`
  * `C139_order`: a traversal whose callback only changes values (`set_value`, `swap`), of any nodes of any trees, and never stops it, ends, visits every node of the tree exactly once, in the order of the traversal, returns their number, and leaves the nodes and the shape of all trees.
* **C140** LRU on_discard overrides may use the cache. Whatever an override of on_discard does with the cache, every call returns, uses no erased list node and leaves a cache whose contains() agrees with its list; each discarded key is reported once.
  * in `Verif/Cache/HookProps.lean`
  * `C140_quiet_partial`: the part that holds: if the override never makes the cache discard while it is discarding, and does not clear it, then every history of calls ends and does what the specification says: each discarded key is reported once, and what the override does counts. It is undefined only for an `operator[]` whose key is gone again after it was added. Missing: other overrides.
  * `C140_unique`: the specification of `C140_quiet_partial` determines the results.
  * `C140_counterexample`: the claim fails: an override that calls `clear()`; after it `clip` removes the last node of an empty list.
  * `C140_clear`: an override that calls `clear()` and nothing else makes every discard undefined.
  * `C140_counterexample_add`: the claim fails: an override that adds another key. The nested call discards the same key again and more, and the outer one then removes a node whose map entry stays: 3 is said to be in the cache, but the cache has only 99, and looking for 3 is undefined.
  * `C140_counterexample_capacity`: the claim fails: an override that reduces the capacity.
  * `C140_endless`: an override that begins with `clip()`, or puts the discarded key back, never returns: each of the nested calls discards the same key again.
* **C141** LRU cache survives exceptions. When the allocation of list nodes or map entries, the copy, hash or comparison of keys, or an override of on_discard throws, the cache stays coherent: contains() agrees with the list, no key is in it twice and later calls are defined.
  * in `Verif/Cache/ThrowProps.lean`
  * `C141_coherent_partial`: the part that holds: exceptions of the hash function and the comparison in lookups and in `clip`, of the allocation of the list node in `add`, of the copy of the key and of `reserve` leave a coherent cache. Missing: exceptions elsewhere.
  * `C141_defined_partial`: the part that holds of the other exceptions: if none happens in `move_to_front` after the old node is gone, or in `remove`, then every history without `operator[]` is defined, although nodes may be in the list that the map does not know.
  * `C141_clear`: whatever was thrown before, `clear()` repairs the cache: after it every history of calls behaves like the abstract recency list (C21).
  * `C141_counterexample`: the claim fails: the allocation of the map entry in `add(1)` throws. The cache then has 1 in its list but says that it does not contain it.
  * `C141_counterexample_twice`: the claim fails: after that exception the same key can be added twice.
  * `C141_counterexample_find`: the claim fails: the allocation of the list node in `find(1)` throws, after the old node is gone; the next `find(1)` or `remove(1)` uses its iterator.
  * `C141_counterexample_remove`: the claim fails: the hash function throws in `remove(1)`, after the node is gone.
  * `C141_counterexample_discard`: the claim fails: an override of `on_discard` throws. The discarded key stays in the list; when it is added again, discarding the old node makes the cache forget the new one.
  * `C141_counterexample_access`: the claim fails: with such a key in the list `operator[]` may forget the key it has just added, and is undefined.
* **C142** Fenwick sums of signed integers do not overflow. If every sum of neighbouring elements fits the signed element type before and after each call, no call on Fenwick trees overflows and every result is the exact one.
  * in `Verif/Fenwick/Signed.lean`
  * `C142_signed_partial`: the part that holds: no call overflows if in addition the new value of every `set_value` and the old one have a distance that fits. Missing: `set_value` with a distance that does not fit.
  * `C142_set_value_exact`: exactly: when the sums fit before and after it, `set_value` overflows if and only if the distance of the two values does not fit.
  * `C142_exact`: the converse: a tree is built, and answers every query, without overflow exactly if all sums of neighbouring elements fit.
  * `C142_update_exact`: the converse for `update`: on a tree whose sums fit, an update and all queries after it return exactly if the sums of the new elements fit.
  * `C142_counterexample`: the claim fails: a tree with the one element `lo`, which `set_value` replaces by `hi`.
* **C143** max_length_of_sum does not overflow. If every sum of neighbouring elements and the required sum fit the signed type, max_length_of_sum performs no overflowing operation.
  * in `Verif/Seqs/Signed.lean`
  * `C143_exact`: exactly: `max_length_of_sum` is defined if and only if each prefix sum fits and, unless it is the required sum, its distance from the required sum fits too; then the result is that of C73 and C74.
  * `C143_signed_partial`: the part that holds: nothing overflows if the sums of neighbouring elements fit and their distances from the required sum do. Missing: distances that do not fit.
  * `C143_counterexample`: the claim fails: the required sum 1 and the one element `lo`.
* **C144** max_sum_of does not overflow. If every sum of neighbouring elements fits the signed type, max_sum_of performs no overflowing operation.
  * in `Verif/Seqs/Signed.lean`
  * `C144_exact`: exactly: `max_sum_of` is defined if and only if each element fits when added to the greatest sum that ends just before it, where the first element counts twice (C75).
  * `C144_signed_partial`: the part that holds: nothing overflows if the sums of neighbouring elements fit, also when the first element is counted twice. Missing: sequences whose repeated first element makes a sum that does not fit.
  * `C144_counterexample`: the claim fails: for one element, `max_sum_of` computes its double.
* **C145** sum_of_subsets does not overflow. If the wanted sum and the sum of every subset fit the signed type, sum_of_subsets performs no overflowing operation.
  * in `Verif/Seqs/Signed.lean`
  * `C145_exact`: exactly: for a wanted sum of the type, `sum_of_subsets` is defined if and only if the difference between the wanted sum and the sum of every subset fits the type; then it counts the subsets (C76).
  * `C145_signed_partial`: the part that holds: for elements that are not negative, with a total that fits the type, and a wanted sum that is not negative, nothing overflows. Missing: other sums whose differences do not fit.
  * `C145_counterexample`: the claim fails: looking for the sum `lo` among the subsets of `[1]`.
* **C146** Message queue callbacks may call the queue. on_start, on_new_message and on_stop may call every method of their own queue: the program is not terminated, each call returns, and messages stay in order.
  * in `Verif/Conc/QueueReenter.lean`
  * `C146_reentrant_partial`: the part that holds: callbacks that call `receive_message`, `send`, `stop`, `discard_messages`, `size`, `empty` and `is_running`, in any number and depending on the whole history, do not terminate the program, their calls return, no call is left when they return, and the queue is in a state that it reaches also when other threads make these calls: all theorems about `Reach` (C93 to C98, C115) hold. Missing: `start`, `join` and `safe_delete`.
  * `C146_fifo`: in particular, the messages of a FIFO queue are processed in the order in which clients and callbacks sent them.
  * `C146_terminates`: the calls of `start` and `join` do end the program: the step in which a callback makes one terminates it.
  * `C146_counterexample`
* **C147** Timer callbacks may call the timer. on_start, on_interval and on_stop may call every method of their own timer: the program is not terminated, each call returns, and after stop() on_interval is not called again.
  * in `Verif/Conc/TimerReenter.lean`
  * `C147_reentrant_partial`: the part that holds: callbacks that call `stop`, `notify` and `set_interval`, in any number and depending on the whole state, do not terminate the program, their calls return without waiting for other threads, and the timer is in a state that it reaches also when other threads make these calls: all theorems about `Reach` (C101 to C104, C113, C114) hold. Missing: `start`, `join`, `stop(true)`, `safe_delete` and the destructor.
  * `C147_stop_partial`: the part that holds: a `stop` called by `on_interval` or by `on_stop` is obeyed, whatever else the callback and other threads call. Missing: one called by `on_start`.
  * `C147_counterexample`: the claim fails: a `stop` called by `on_start` is overwritten by `_is_running = true` (timer.h:130).
  * `C147_start_lost`: it is always overwritten: when the loop begins, the flag is set.
  * `C147_terminates`: the claim fails for the other calls: `start` and `join` (hence `stop(true)`) end the program.
  * `C147_deadlock`: the claim fails for the destructor: a timer that is destroyed by its own callback waits for ever for the mutex that its thread holds.
* **C148** Objects in a lockable_t are atomic under their lock. If every thread reads a lockable_t only while it owns its mutex (at least shared) and writes only while it owns it exclusively, no data race occurs, all reads and copies return what one thread would see that made the same calls one after the other, and nobody else uses the object between a lock and its unlock.
  * in `Verif/Conc/Lockable.lean`
  * `C148_atomic`: **C148.** If every thread follows the discipline, nothing undefined happens and what the threads read and copy is what one thread would read and copy that made the same calls on a plain object, one after the other.
  * `C148_no_race`: **C148.** No data race: two threads never stand before accesses to the same part, one of them a write.
  * `C148_isolated`: **C148.** From the time a thread has taken the mutex until it releases it no other thread reads or changes the object: all its accesses of this time are one atomic operation.
  * `C148_shared`: **C148.** While a thread is a shared owner nobody changes the object.
  * `C148_available`: **C148.** The mutex is never stuck: when nobody owns it any thread that does nothing else can take it.
  * `C148_discipline_needed`: The discipline is needed: the assignment and the copy of a `lockable_t` do not take its mutex. Thread 1 assigns the values 7, 7 to an object with 0, 0 while thread 2 copies it, and gets 7, 0.
* **C149** lockable_t is constructed by moving from rvalues. A lockable_t has the contents of the argument it is constructed from or assigned; an rvalue argument is moved from (left empty, nothing copied), other arguments are unchanged.
  * in `Verif/Conc/LockableValue.lean`
  * `C149_construct_partial`: **C149, partial.** Missing: an rvalue of type `T`.
  * `C149_contents`: Also an rvalue of type `T` gives the right contents.
  * `C149_assign`: for the assignments.
  * `C149_counterexample`: the claim fails: `lockable_t<T> b(std::move(a))` with `a` of type `T` copies every element, for every `a` that has one, and leaves `a` as it was.
* **C150** Predefined delimiter filters are defined for every character. A custom_delimiter_t can be made from each predefined filter without undefined behaviour, and then reads the maximal runs of accepted characters.
  * in `Verif/Tools/Filters.lean`
  * `C150_unsigned_partial`: **C150, partial.** It holds where `char` is unsigned. Missing: platforms with a signed `char`.
  * `C150_counterexample`: the claim fails where `char` is signed: for every class of characters the table cannot be made, since the loop passes -128 to the classification function.
  * `C150_exact`: Which characters are to blame: exactly those from 128 to 254.
* **C151** Random numbers may be drawn by several threads. Whatever the schedule, the numbers that threads draw are those of the generator, each once.
  * in `Verif/Tools/RandomThreads.lean`
  * `C151_serial_partial`: **C151, partial.** It holds when the calls do not overlap, and then no two threads access the generator at the same time. Missing: calls that overlap.
  * `C151_counterexample`: the claim fails for every generator whose first two numbers differ: two threads that call at the same time get the same number (and race on the generator, which is undefined).
* **C152** timestamp_t measures the time since the last reset. elapsed() and difference() give the time since the last reset or the construction in whole units, rounded towards zero; on a clock that does not go backwards they are not negative, less than one unit below the real time, and do not decrease.
  * in `Verif/Tools/Timestamp.lean`
  * `C152_since_reset`: **C152.** Whatever was called before, `elapsed` and `difference` tell the time since the last reset (or the construction), in whole units towards zero.
  * `C152_accurate`: **C152.** When the clock does not go backwards the result is never negative, never more than the time that passed, and less by less than one unit.
  * `C152_monotone`: **C152.** Between resets the results do not decrease when the clock does not.
  * `C152_unsteady`: `high_resolution_clock` need not be steady: when it is set back the result can be negative.
* **C153** max_length_of_sum over floating point numbers. For floating point elements a positive result is the length of a subarray with the required sum, and the result is 0 only if there is none.
  * in `Verif/Seqs/Floating.lean`
  * `C153_whole`: Whole numbers are handled as by the integer version.
  * `C153_whole_partial`: **C153, partial.** It holds when the elements and the required sum are whole numbers. Missing: fractions.
  * `C153_counterexample`: the claim fails: for 0.25, 1.0 and the required sum 1.5 the result is 1, though no subarray has this sum.
* **C154** Union sets survive exceptions. A call of union_find_t or union_set_t that throws (allocation, or copy, hash or comparison of an element) has no effect.
  * in `Verif/UnionFind/Throw.lean`
  * `C154_strong_partial`: **C154, partial.** `insert` has no effect when the look-up or the new map entry throws; `resize` has none when the first vector throws. Missing: the other points.
  * `C154_history_partial`
  * `C154_leftover`: the claim fails for `insert` at the other points, for every element that is new: it is then in the map but has no item.
  * `C154_counterexample_find`: What remains is dangerous: the next `find_by_elem` of the element reads beyond the end of `_items`.
  * `C154_counterexample`: the claim fails: the insertion of 20 throws; when 30 is inserted afterwards, 20 and 30 are in the same set although nothing was joined, and the set has one element.
  * `C154_counterexample_resize`: the claim fails for `resize` of `union_set_t`: the new sets exist but have no rank, so that `find` reads beyond the end of `_ranks`.
* **C155** AVL trees survive exceptions. A call of avl_tree_t that throws (allocation, or copy or comparison of an element) leaves the contents as they were.
  * in `Verif/Avl/Throw.lean`
  * `C155_basic_partial`: **C155, partial.** What always holds, whatever throws: the tree stays sorted, `size()` stays the number of its elements, every call that does not throw does what it promises on what the former calls left behind, and a call that throws leaves the contents as they were, or (`insert`) with the new value, or (`remove`) with the removed value replaced by a second copy of a greater one. Missing: that it leaves the contents as they were.
  * `C155_insert_partial`: **C155, partial.** Unless the comparison of `rotate_if_needed` throws (binary_tree.h:793, 801), an `insert` that throws leaves the whole tree as it was. Missing: that comparison, which comes after the insertion.
  * `C155_remove_partial`: **C155, partial.** In a tree without duplicates, when only the copy and the assignment of the successor throw (binary_tree.h:905), a `remove` that throws leaves the whole tree as it was. Missing: comparisons and the second copy (binary_tree.h:906), which come after the value was replaced.
  * `C155_contains`: `contains` that throws has no effect; when it does not throw it is `contains`.
  * `C155_counterexample`: **C155, counterexample:** the claim fails for `remove`: from the set 1, 2, 3 the removal of 2 throws when 3 is compared with itself; the tree then contains 3 twice, though duplicates are not allowed, and 2 not at all.
  * `C155_counterexample_remove`: The set after that: 1, 3, 3.
  * `C155_counterexample_insert`: **C155, counterexample:** the claim fails for `insert`: it throws, but the value is in the tree; the tree is not balanced, `height()` is not its height, and later insertions that do not throw do not balance it.
* **C156** The search for a missing element of an arithmetic sequence does not overflow. If the elements of the full progression fit the signed element type, find_missing_arithmetic_in_sorted performs no overflowing operation and gives the exact result.
  * in `Verif/Seqs/MissingSigned.lean`, `Verif/Seqs/MissingSignedExact.lean`
  * `C156_arithmetic_partial`: **C156, partial.** Nothing overflows if also the distances of the elements from the first one fit the wider type. Missing: 64 bit progressions that span more than half the range.
  * `C156_int_partial`: for `int`: the products are computed in 64 bits, so nothing overflows.
  * `C156_counterexample`: **C156, counterexample:** the claim fails for 64 bit integers: the distance of the fourth element from the first one does not fit.
  * `C156_defined`: for every sequence whatsoever and every width, a 64 bit search that is defined gives the answer that it gives without bounds: an overflow is never silent.
  * `C156_exact`: exactly: when all elements of the progression fit the type and an inner element is missing, the search is undefined iff it looks, before it meets the missing position, at a position that is beyond the end or whose distance from the first element does not fit the wider type (otherwise see `C156_defined` and `C156_int_partial`).
* **C157** The search for a missing element of a geometric sequence is exact. If the elements of the full sequence fit the signed element type, find_missing_geometric_in_sorted performs no undefined operation and finds what it would find with exact powers.
  * in `Verif/Seqs/MissingSigned.lean`
  * `C157_geometric_partial`: **C157, partial.** It holds when all elements are below 2^53 in absolute value, in particular always for `int`. Missing: greater elements, which a double need not represent.
  * `C157_sound`: (and C68 with bounds): whatever `std::pow` returns, and whatever the type, a value that is reported is the missing one.
  * `C157_counterexample`: **C157, counterexample:** the claim fails: the doubles for `2^53 + 1` and its multiples are others, so that the search turns to the wrong side and does not find the element it finds without rounding.
  * `C157_counterexample_conversion`: **C157, counterexample:** for the greatest 64 bit integer and the factor -1 the double is `2^63`, whose conversion back is undefined.
* **C158** n-ary trees survive exceptions. A statement about tree_t or tree_node_t that throws (allocation, growing vector, or copy of an element) leaves the contents, the parents and the allocated nodes as they were.
  * in `Verif/NMem/ThrowProps.lean`
  * `C158_basic_partial`: whatever throws, the program can go on: if the statements that do not throw are those of C129, the program runs to its end without UB, every pointer leads to an allocated node, and no node is reachable in two ways. Moreover the results are those of the same program over immutable values with the same exceptions, if the statements that do not throw are those of C130, and the contents are those of `nrunTSpec`. Missing: the copies of C129 and C130.
  * `C158_strong_partial`: the part that holds: these statements have no effect when they throw, in any state of any program: `add_child` and `insert_at_first_null` when the node cannot be made, `insert_at` within the slots, `insert_at` and `replace_at` when the vector cannot grow, `set_value`, `swap` when the first copy throws, and the assignment of trees when the node cannot be made. Missing: all other statements and points (see the counterexamples).
  * `C158_leak`: what is lost: for the programs of C129 with any exceptions, something is lost at the end if and only if a statement lost it as in C132, or a vector could not grow after the new node was made, or a copy of a tree threw after its root was made: always in a constructor, and otherwise if the target had a root.
  * `C158_parent_partial`: parents: `parent()` is right as in C131, if the statements that do not throw are those of C131 and the nodes of an assignment that throws have the same parent (or both none).
  * `C158_counterexample`: the claim fails: `add_child` leaks the new node when `push_back` throws.
  * `C158_counterexample_first_null`: the claim fails: the same in `insert_at_first_null`.
  * `C158_counterexample_root`: the claim fails: `add_root` has deleted the tree when the new root cannot be made.
  * `C158_counterexample_replace`: the claim fails: `replace_at` deletes the child that it should return when the new one cannot be made.
  * `C158_counterexample_copy`: the claim fails: the copy constructor of a tree leaks the new root, when the copy of the value throws.
  * `C158_counterexample_copy_slots`: the claim fails: and when the vector of children cannot be copied.
  * `C158_counterexample_assign_parent`: the claim fails: the assignment of nodes changes the parent first.
  * `C158_counterexample_move_parent`: the claim fails: so does the move.
  * `C158_counterexample_insert`: the claim fails: `insert_at` leaves null slots when the new node cannot be made.
  * `C158_counterexample_swap`: the claim fails: `swap` loses a value when its last copy throws.
  * `C158_counterexample_assign`: the claim fails: an assignment of nodes has changed the value when the vector of children cannot be copied.
  * `C158_counterexample_tree`: the claim fails: an assignment of trees leaves a single node with a default value when the copy of the value throws.
  * `C158_full_without_children`: the consequence of the null slots: after an `insert_at` at the last position that threw, `add_child` is refused, though the node has no child.
* **C159** Binary trees survive exceptions. A statement about binary_tree_t or its nodes that throws (allocation, or copy of an element) leaves the contents, the parents and the allocated nodes as they were.
  * in `Verif/Mem/BinThrowProps.lean`
  * `C159_basic_partial`: whatever throws, the program can go on: without the assignments of `C122_undefined_iff`, it runs to its end without UB, every pointer in a tree leads to an allocated node, and no node is reachable in two ways. If moreover the assignments are those of C123, then the same statements throw as in the program over immutable values, with the same results otherwise, and the contents are those of `brunTSpec`: in particular the parts of a copy that `partNode` describes. Missing: the assignments of C122 and C123.
  * `C159_points`: when a copy throws: the assignment of a node throws if and only if one of its `2 * m - 1` operations does, for a subtree of `m` nodes: a `new` for each node but the first, and an assignment of a value for each. The copy of a tree has one more, the `new` of the root.
  * `C159_same_copy`: the copy with exceptions is the one of C122 as long as nothing throws.
  * `C159_strong_partial`: the part that holds: `add_left`, `add_right`, `set_value`, `swap` except at its last copy, and the copy of a tree when its root cannot be made have no effect when they throw, in any state of any program. Missing: the other statements and points (see the counterexamples).
  * `C159_leak`: what is lost: for the programs of C122 with any exceptions, something is lost at the end if and only if a statement lost it as in C125, or a copy of a tree threw after its root was made: always in a constructor, and otherwise if the target had a root.
  * `C159_parent_partial`: parents: `parent()` is right as in C124, if the assignments that do not throw are those of C124, and those that throw do so in an operation on the node itself, not within the copy of a child. Missing: exceptions within the copy of a child (`C159_null_parent`), and the assignments of C124.
  * `C159_counterexample`: the claim fails: `add_root` has deleted the tree when the new root cannot be made.
  * `C159_counterexample_constructor`: the claim fails: the copy constructor of a tree leaks its root, when the copy of the value throws.
  * `C159_counterexample_assign_children`: the claim fails: an assignment of nodes deletes the children of the target first.
  * `C159_counterexample_assign`: the claim fails: an assignment of nodes that throws leaves a part of the children behind.
  * `C159_counterexample_move`: the claim fails: a move that throws when the value is moved has moved the children.
  * `C159_counterexample_tree`: the claim fails: an assignment of trees leaves default values.
  * `C159_counterexample_swap`: the claim fails: `swap` loses a value when its last copy throws.
  * `C159_null_parent`: an exception within the copy of a child leaves a child whose `parent()` throws.
* **C160** Segment trees survive exceptions. A call of segment_tree_t that throws (an operation of the transform, or an allocation) leaves the tree representing a list of elements: later queries return the joins of its slices.
  * in `Verif/Seg/ThrowProps.lean`
  * `C160_query_partial`: the part that holds for queries: a query that throws, at whatever operation, leaves every later answer as it was.
  * `C160_history_partial`: the part that holds for all calls: in every history of queries and updates in which any operations throw, the elements are those of the completed updates and of a first part of each interrupted one; one-element queries return them, and so do queries of ranges in which no update was interrupted.
  * `C160_repair`: repairing: after such a history, reading the elements at the positions where updates were interrupted makes the tree represent its elements again, whatever these are.
  * `C160_counterexample_update`: the claim fails for updates: adding 10 to the first of the elements 1, 2 throws in the last `join`; the elements are 11 and 2 but the query of both returns 3, so the tree represents no elements at all.
  * `C160_counterexample_rebuild`: the claim fails for `rebuild`: a tree of one element is rebuilt from four and the allocation throws. `size()` is already 4 and the tree still counts as built, so the next query of all elements returns a value that was never assigned (UB).
  * `C160_not`
  * `C160_keepVal_needed`: why `propagate` has to keep the value: without it a query that throws damages the tree.
  * `C160_first_build`: first build: if it throws the tree stays unbuilt, and queries and updates throw `heap_not_built_exception_t`.
  * `C160_same_build`: a build that completes is the build without exceptions.
  * `C160_rebuild`: a `rebuild` that completes repairs a tree in whatever state exceptions left it.
  * `C160_same`: a query or update that completes is the call without exceptions, and with enough operations it completes.
  * `C160_basic_partial`: memory safety: for every transform whose `apply` and `propagate` keep bounds and indices (no other law), every history of calls in which any operations throw, also inside rebuilds from as many elements as the tree has, stays inside the heap.
* **C161** Fenwick trees survive exceptions. A call of fenwick_tree_t that throws (an addition or subtraction of elements, or growing the array) has no effect.
  * in `Verif/Fenwick/ThrowProps.lean`
  * `C161_history_partial`: the part that holds: in every history of calls on any number of trees in which operations throw anywhere, calls that complete act as on plain lists; an `update` or `set_value` that throws has done nothing, or has added its value at the position and is missing it at one later position; a query that throws has done nothing; a build or copy assignment that throws leaves some list.
  * `C161_sums`: what an interrupted update means for sums: with `j` the position at which the value is missing, every query of a range that holds both of `p` and `j`, or none of them, is as right as if the update had been completed or not begun.
  * `C161_repair`: repairing an interrupted update: there is a position at which the same value has to be added once more; then all cells are those of the completed update.
  * `C161_counterexample_update`: the claim fails for updates: with one successful addition, `update(1, 10)` on 1, 2, 3, 4 has changed the elements to 11, -8, 3, 4.
  * `C161_counterexample_retry`: the claim fails for builds: the first build throws after one element has been added; the same build is tried again and completes, but the elements are 2, 1, 1 instead of 1, 1, 1 (`_build` clears the array only of trees that are built).
  * `C161_retry`: the retry in general: a completed build after builds that did not complete has the right elements if it is the first that completes with more elements than any before it, or if the object was built; otherwise the remains are added.
  * `C161_not`
  * `C161_same`: the calls that complete are those without exceptions, and with enough operations every call completes.
* **C162** A start() that fails leaves no trace. If start() throws because no thread can be created, exit_code() and is_running() answer as they would without the call, and the object can be joined, destroyed and started again.
  * in `Verif/Conc/ThreadThrow.lean`
  * `C162_failed_partial`: the part that holds: a `start` that throws leaves everything as it would be without the call, except the exit code: this is NOT_FINISHED, unless the thread of an earlier start stores its result during the call. Missing: the exit code.
  * `C162_not`: the claim fails: after a first `start` that throws, the exit code is NOT_FINISHED instead of NOT_STARTED.
  * `C162_counterexample_lost`: the claim fails: a thread has returned 7 and was joined; another `start` throws; the 7 is lost.
  * `C162_forever`: waiting for a thread that could not be started: as long as nobody calls `start` again, `is_running` answers true, whatever happens; so does `is_running` of a message queue, which is at least that of its thread (message_queue.h:105-108), so a loop that waits for the end does not end.
  * `C162_derived`: in derived classes: with its own flag false, as before the first `run` and after every one, a timer that could not be started is not running, but a message queue is said to run.
  * `C162_retry`: starting again: after any number of failed starts, if a start succeeds, the thread's `run` returns `v` and the thread is joined, then the exit code is `v`.
  * `C162_run_throws`: exceptions of `run`: the program is terminated; nobody can catch the exception, and nothing happens after it.
  * `C162_same`: nothing else changes: a history without failures is one of `Verif/Conc/Thread.lean`, to which C100, C111 and C112 apply.
* **C163** AVL trees answer truthfully for elements that cannot be compared. Also for element types whose comparisons are no linear order, such as double with NaN: an inserted value is contained, a refused one was contained, remove() reports true only for a contained value and changes nothing when it reports false.
  * in `Verif/Avl/UnorderedProps.lean`
  * `C163_any_partial`: Whatever the comparisons answer, every history of calls terminates without undefined behaviour, what each call reports is what it did to the number of elements, no element appears that was not inserted, `size()` is the number of elements modulo 2^64 and the stored heights are exact. What is missing for the full statement `Truthful` is false (`C163_not`).
  * `C163_nan_partial`: Floating point numbers without duplicates: the tree always holds a set of numbers or a single NaN, and every call does and returns what `Call` says. A NaN is refused by a non-empty tree though not contained, a tree that holds NaN refuses everything, `remove(NaN)` takes some number from the tree and reports `true`, `remove_all(NaN)` empties the tree, and any `remove` on a tree that holds NaN takes the NaN. `contains` finds exactly the numbers and never NaN.
  * `C163_same`: A linear order given by its comparisons: the same behaviour as in the model of C1 and its neighbours.
  * `C163_linear`: The full statement holds for linear orders.
  * `C163_numbers`: As long as no NaN is passed, with or without duplicates, floating point numbers behave as a linear order.
  * `C163_counterexample_remove`: `remove(NaN)` takes 1 from the tree {1} and reports success.
  * `C163_counterexample_refused`: A tree that holds NaN refuses 1, which it does not contain.
  * `C163_counterexample_other`: `remove(1)` on a tree that holds only NaN takes the NaN.
  * `C163_counterexample_replaced`: With duplicates, `remove(1)` reports that nothing was removed but has replaced an element 1 by a second 2.
  * `C163_counterexample_lost`: With duplicates, an inserted number may not be found.
  * `C163_not`: The full statement is false for floating point numbers.
* **C164** LRU caches work for keys that are not equal to themselves. Whatever the == of the keys (NaN is unequal to itself, -0.0 equal to 0.0): an added key is contained if the capacity is not 0, operator[] returns an equal key, and the map has no more entries than the capacity.
  * in `Verif/Cache/UnequalProps.lean`
  * `C164_partial`: Every history of calls behaves as the recency list in which a key counts as held if an equal key is: the same outputs, keys, discards and flags, and undefined behaviour exactly for `operator[]` of an absent key when the capacity is 0 or the key is unequal to itself. The map also keeps an entry for every key unequal to itself that was added since the last `clear`, also after it was discarded. What is missing for the full statement `Faithful` is false (`C164_not`).
  * `C164_size`: `size()` never exceeds the capacity, whatever keys are used.
  * `C164_reflexive`: The full statement holds if every key is equal to itself.
  * `C164_same`: If equality is identity, the specification is that of C21.
  * `C164_counterexample_access`: `cache[NaN]` dereferences a singular iterator.
  * `C164_not`: The full statement is false for floating point keys.
  * `C164_unbounded`: The map grows without bound: after `n` calls of `add(NaN)` on a cache of capacity 1 it has `n` entries.
* **C165** next_random_double stays in range. next_random_double(start, end) with start <= end returns a double between start and end inclusive, in spite of rounding.
  * in `Verif/Tools/RandomDouble.lean`
  * `C165_in_range_partial`: Where the distribution is defined (`start <= end`, and the width is at most the greatest double) the result lies between the arguments, both inclusive, in spite of the roundings. For greater widths the full statement is false (`C165_counterexample`).
  * `C165_total`: There is a result for all arguments and outputs of the generator.
  * `C165_start`: `start` is a possible result.
  * `C165_end`: `end` is a possible result, although the distribution promises numbers below it: the sum is rounded.
  * `C165_counterexample`: The distribution is undefined for wider ranges: `next_random_double(-max, max)`.
* **C166** Timers and semaphores wait as long as they were told. For every interval or time-out that the parameter type can hold, a wait begun at any time of the clock ends exactly when asked for.
  * in `Verif/Conc/Interval.lean`
  * `C166_exact_partial`: A wait ends exactly when asked for if and only if that moment is one that the clock can show. What is missing for the full statement is false (`C166_not`).
  * `C166_otherwise`: Otherwise a wait is undefined, or it ends at once: this happens to the greatest 9223372036854 intervals.
  * `C166_century`: For a century of uptime and intervals up to a century everything is exact.
  * `C166_integer`: Numbers of an integer type that are not negative reach the timer as given.
  * `C166_negative`: With a negative interval (`timer_t t{-1, f}` meant to last for ever) every wait ends at once.
  * `C166_floating`: Floating point intervals are truncated to milliseconds.
  * `C166_floating_bounds`: A time-out of half a millisecond is none; a negative one is undefined.
  * `C166_counterexample_greatest`: The greatest interval does not wait at all.
  * `C166_counterexample_overflow`: `std::chrono::milliseconds::max()` overflows.
  * `C166_not`: The full statement is false.
* **C167** The searches for a missing element take logarithmic time. Each of the three searches for a missing element takes O(log n) iterations, as documented.
  * in `Verif/Seqs/Cost.lean`
  * `C167_same`: The counting functions compute what the functions of Model.lean compute.
  * `C167_linear_partial`: The searches over integers never take more iterations than there are elements. A logarithmic bound does not hold for them (`C167_not`).
  * `C167_floating`: The search over floating point numbers takes three iterations at most: it always turns right, and leaves the sequence.
  * `C167_counterexample_arithmetic`: The arithmetic search for the twelfth element, in a sequence of any power of two from 32 on, takes as many iterations as there are elements, and then reports an invalid sequence.
  * `C167_counterexample_geometric`: The same for the geometric search over integers and the 48th element, from 128 elements on.
  * `C167_not`: The full statement is false, for both searches over integers.
* **C168** The dynamic programming is effective. sum_of_subsets computes no sum twice for the same position: it makes at most 1 + 2 n (s + 1) calls for n integers whose absolute values sum up to s, and calls with a common memo share their work. max_length_of_sum stores at most n sums.
  * in `Verif/Seqs/CostDp.lean`
  * `C168_same`: The counting function computes what the function of Model.lean computes.
  * `C168_calls`: Every call that is not answered from the memo makes one entry, so that no sum is computed twice for the same position: the number of calls is one more than twice the number of new entries.
  * `C168_bound`: `sum_of_subsets` is defined, and counts the subsets with at most `1 + 2 n (s + 1)` calls, whichever operand is evaluated first.
  * `C168_shared`: Calls that share a memo share the work: together they make one call each, and two for each entry of the memo.
  * `C168_subarray`: `max_length_of_sum` stores at most one sum for each element.
* **C169** Fenwick trees take logarithmic time. update and prefix sums visit at most as many cells as the length has binary digits (floor(log2 n) + 1), query at most twice and set_value at most three times as many; building visits at most n (floor(log2 n) + 1) cells.
  * in `Verif/Fenwick/Cost.lean`
  * `C169_same`: The counting functions compute what the functions of Model.lean compute.
  * `C169_update`: `_update` visits no more cells than the greatest index has binary digits.
  * `C169_prefix`: A prefix query reads exactly as many cells as its position has ones.
  * `C169_calls`: on an array of `n + 1 ≤ 2^64` cells, `update` visits no more cells than `n` has binary digits (`log2 n + 1`, and none if `n` is 0), `query` no more than two each, and `set_value` three.
  * `C169_build`: Building a tree of `n` elements from scratch visits at most `n` cells for every binary digit of `n`.
  * `C169_build_least`: It visits at least one for every element.
  * `C169_query`: A query of `[p, q]` reads exactly as many cells as `p - 1` and `q` together have ones.
  * `C169_set_value`: `set_value` visits the cells of a query of its position and, unless there is nothing to change, those of an update.
  * `C169_tight`: An update of the first element visits all powers of two: as many cells as the bound says, whatever the size.
  * `C169_digits`: `digits` is the logarithm.
* **C170** Segment trees take logarithmic time. query and query_update on n elements visit O(log n) nodes (at most 4 log2 n - 3), whatever was called before.
  * in `Verif/Seg/Cost.lean`
  * `C170_same`: The counting functions compute what `query` and `query_update` of Model.lean compute.
  * `C170_bounds_partial`: after every history of calls, `query_update` visits `O(log n)` nodes if `criteria` accepts every node (the default), and so does `query` if updates are never pending (as for the library's own transform); in any case a call visits at most `2 n - 1` nodes and at most `2 log2 n` more than twice the length of its interval. Missing: queries below pending updates (`C170_counterexample`).
  * `C170_fresh`: after a tree was built, queries visit `O(log n)` nodes until the first update.
  * `C170_counterexample`: after a tree of `n` elements was built and one update applied to all of them (which visits one node), a query of all of them visits all `2 n - 1` nodes.
  * `C170_not`: does not hold: on 8 elements the query visits 15 nodes instead of 9.
* **C171** AVL trees take logarithmic time. contains, insert and remove visit O(log n) nodes of a tree with n elements, and remove_all, as documented, as many for each value it removes (and once more).
  * in `Verif/Avl/Cost.lean`
  * `C171_same`: The counting functions compute what the functions of Model.lean compute.
  * `C171_depth_partial`: after every history of calls, `contains` and `insert` visit at most as many nodes as the tree is deep, and `remove` and each round of `remove_all` at most `d (d + 1) / 2` for the depth `d`, or `2 d - 1` if duplicates were never allowed. Missing: that the depth is logarithmic, which fails (`C171_counterexample`).
  * `C171_insertions_partial`: after insertions only, and with duplicates disabled, all calls are logarithmic.
  * `C171_counterexample`: the claim fails as badly as possible: for every `m` there is a history of insertions and removals after which the tree has `m + 8` elements and every call with a value of at least `21 m` visits `m` nodes or more.
  * `C171_not`
  * `C171_exact`: the exact numbers. `contains` and `insert` visit the nodes on the way to the value, `remove` these and possibly more; `remove_all` visits the nodes of as many calls of `remove` as succeed and of the one that fails.
  * `C171_duplicates`: With duplicates `2 d - 1` is too little: of 20 equal values, in a tree of depth 6, `remove` visits 19 nodes to remove one, because it searches the least element again at each level of the right subtrees. Five equal values meet the bound `d (d + 1) / 2`.
* **C172** The linear searches and sums take linear time. find_missing_sequential_range, find_not_common_element, find_non_repeated_element, max_length_of_sum and max_sum_of take O(n) steps, as documented, with all the iterators they accept.
  * in `Verif/Seqs/CostLinear.lean`
  * `C172_same`: The counting functions compute what the functions of Model.lean compute.
  * `C172_linear_partial`: what holds: the exact numbers of steps of the searches by XOR and of `max_sum_of` with any iterators, and of `max_length_of_sum` with random access iterators, and at most three calls of the hash map for each element.
  * `C172_counterexample`: With iterators that can only be incremented, `max_length_of_sum` takes exactly `n + n (n + 1) / 2` steps for `n` elements, whatever they are: for each element it measures the distance from the first one anew.
  * `C172_not`: the claim fails.
* **C173** gcd and divisors_of are fast. gcd makes at most 93 calls on 64-bit numbers (at most 2 log2 b + 3 in general), and divisors_of takes at most sqrt(n) rounds of its loop.
  * in `Verif/Tools/Cost.lean`
  * `C173_same`: The counting functions compute what the functions of Model.lean compute.
  * `C173_lame`: With `n + 2` calls the second number is at least the Fibonacci number `n + 2`, whichever number is greater.
  * `C173_gcd_log`: `gcd` makes at most `2 log2 b + 3` calls.
  * `C173_gcd`: for 64 bit numbers `gcd` makes at most 93 calls.
  * `C173_gcd_tight`: Both bounds are reached: the calls for consecutive Fibonacci numbers, and two 64 bit numbers that need 93.
  * `C173_divisors`: `divisors_of` takes `√n` rounds, or one less, and never more than 2^32 - 1; it returns at most two divisors for each.
* **C174** Command managers are values. Command managers may be copied, assigned, passed as rvalues and destroyed in any order: every stored command is deleted exactly once.
  * in `Verif/Command/Copies.lean`
  * `C174_partial`: **C174, partial.** A program that copies managers only while they are empty is defined. At its end each stored command was deleted exactly once, except those of managers that were assigned over, which are never deleted; without assignments there are none. Missing: copies of managers that hold commands (`C174_exact`).
  * `C174_exact`: **C174, exactly, without assignments:** a program is UB if and only if at some time it copies a manager that holds a command.
  * `C174_counterexample`: **C174, counterexample:** the claim fails: a manager with one command is copied, and both delete it.
  * `C174_counterexample_leak`: **C174, counterexample:** the claim also fails for assignments from empty managers: the command that the target held is never deleted.
* **C175** Message queue reacts without delay. A message that was received while the worker is idle is handled, and stop() ends an idle worker, without waiting for the end of the 100 ms that the worker sleeps at a time.
  * in `Verif/Conc/QueueWake.lean`
  * `C175_partial`: **C175, partial.** When the calls that inserted the messages have returned, the sleeping worker was notified, unless a notification came in the moment between its look at the container and its falling asleep. Missing: that moment (`C175_counterexample`).
  * `C175_wakes`: **C175:** a notified worker goes on at once: two steps later it has left the wait because of the message.
  * `C175_counterexample`: **C175, counterexample:** the message waits for the end of the 100 ms.
  * `C175_stuck`: **C175:** a worker that is blocked and was not notified can only go on at the end of the 100 ms (or by a spurious wake-up).
  * `C175_stop_ignored`: **C175:** neither `stop` nor `discard_messages` wakes a worker that waits for messages: whatever is called and whoever is notified, without a new message and without the end of the 100 ms the worker stays where it is.
  * `C175_counterexample_stop`: **C175, counterexample:** the notification of `stop` has no effect on an idle queue: the predicate of the wait does not look at `_stopped`.
  * `C175_stop_timeout`: **C175:** one end of the 100 ms suffices: after `stop`, an idle worker that has nothing to discard then ends by its own steps.
* **C176** Message queue survives exceptions. When copying or comparing messages or a callback throws, the call fails without effect, the mutex is released and the queue goes on.
  * in `Verif/Conc/QueueThrow.lean`
  * `C176_partial`: **C176, partial.** Whatever calls of `receive_message` throw, the queue is in a state that it reaches without the calls that threw before the insertion, and with those that threw after it; so everything proved about the container, the order of the messages and the callbacks remains true. A client whose call threw is not involved any more, and the mutex is free again. Missing: exceptions on the worker (`C176_counterexample`, `C176_terminates`).
  * `C176_fails`: **C176:** a call that throws before the insertion: two steps after the client got the mutex free, the container and the log are as before and the mutex is free.
  * `C176_terminates`: **C176:** an exception on the worker ends the program, wherever it is thrown.
  * `C176_counterexample`: **C176, counterexample:** the claim fails: `on_start` throws.
  * `C176_counterexample_late`: **C176, counterexample:** a call that throws because of a comparison delivers its message all the same.
* **C177** Semaphore notifications are enough. No thread sleeps beside a free resource for which nobody is coming: while a thread waits in lock(), as many threads as there are free resources have been woken or are about to be notified, so none depends on its time-out.
  * in `Verif/Conc/SemWake.lean`
  * `C177_partial`: **C177, partial.** The claim when every call of `set_available_resources` adds at most one resource. Missing: larger additions, for which it is false (`C177_counterexample`).
  * `C177_served`: **C177:** so a thread is not left alone: while a resource is free, some thread acquires one without any time-out.
  * `C177_counterexample`: **C177, counterexample:** two resources are added at once, one of the two waiting threads is notified; the other one sleeps beside a free resource, and nobody is coming.
* **C178** Timer survives exceptions. An exception of on_start, on_interval or on_stop does not end the program, and a stop() that is left by an exception of on_stop has stopped the timer: on_interval is not called any more and the sleeping thread was woken.
  * in `Verif/Conc/TimerThrow.lean`
  * `C178_partial`: **C178, partial** (first half). The program is ended exactly by the exceptions that leave the thread or a destructor: while there is none the program goes on, and everything that `TimerProps` proves of the timer's states holds. Missing: those exceptions (`C178_counterexample`).
  * `C178_stops`: **C178:** a `stop` that has cleared the flag is in force, even if `on_stop` throws then (or throws in later calls of `stop`): the flag stays cleared, `on_interval` is called at most once more, and the thread can run to its end by itself.
  * `C178_counterexample`: **C178, counterexample:** `on_interval` throws.
  * `C178_counterexample_wake`: **C178, counterexample** (second half): the exception skips the notification; the thread of the stopped timer sleeps on for an hour.
  * `C178_wake_partial`: **C178, partial** (second half): the exception changes nothing for the thread: it sleeps on if and only if it slept and had not been notified before. Missing: the notification (`C178_counterexample_wake`).
  * `C178_again`: **C178:** the way out: to call `stop` once more, if `on_stop` does not throw then.
* **C179** Stopping a message queue ends its worker. Once _stopped is set, the worker of a message queue leaves run() after boundedly many steps of its own, whatever the other threads do: at most 15, 8 for each message in the container or received later, one for each wake-up and 15 for each further start(). It is never stuck on the way, except behind a client that holds the mutex of the container and can release it. A producer that never pauses keeps it busy for ever.
  * in `Verif/Conc/QueueEnds.lean`
  * `C179_bounded`: **C179:** after `stop`, the worker takes only boundedly many steps, under every schedule: at most 15, and 8 for each message in the container or still to be received, one for each wake-up without a message and 15 for each further `start()`.
  * `C179_never_stuck`: **C179:** the worker of a started queue is never stuck: before its end it can always take a step of its own or its time-out is coming, unless a client holds the mutex, and that client can take a step.
  * `C179_ends`: **C179:** so the worker comes to its end by its own steps and time-outs alone; it needs at most `15 + 8 * n` of them for `n` messages in the container.
  * `C179_starved`: Why the messages still to come must be counted: a client that inserts often enough keeps a stopped worker busy for ever; after `n` messages it is still where it was.
* **C180** find() compresses exactly the path it walks. With compression, find(x) makes every set on the path from x a direct child of the root it returns, so that a later find of any of them makes at most one recursive call, and changes no other parent; without compression it changes nothing.
  * in `Verif/UnionFind/Exact.lean`
  * `C180_find`: `find(x)` on an existing set. With compression every set on the walk from `x` becomes a direct child of the root that is returned, and all other parent cells keep their value; every later `find` of a set of that walk makes at most one recursive call and returns the same root. Without compression the object does not change at all.
* **C181** Stopping a timer ends its thread. Once a stop() has taken effect (C101), the timer thread ends after at most 14 further steps of its own, whatever the other threads, clocks and callbacks do; it falls asleep at most once more, and is never stuck on the way except behind a destructor that holds the mutex and can go on, or in the user's callback.
  * in `Verif/Conc/TimerEnds.lean`
  * `C181_bounded`: **C181:** once a `stop` has taken effect, the thread takes at most 14 further steps before the next `start()`, whatever the other threads, the clocks and the callbacks do; it falls asleep at most once more, and not at all unless it had passed the test of the loop (line 132) already.
  * `C181_never_stuck`: **C181:** before its end the thread of a reachable timer can always go on by itself, or it is asleep (then it may be woken at any moment, and time-out comes as soon as the clock has passed its deadline), or the user's `on_interval` is being executed, or the destructor of the timer holds the mutex, and that destructor can go on.
  * `C181_ends`: **C181:** so it comes to its end by its own steps, the returns of its callbacks and the passing of time alone.
  * `C181_tight`: The bounds are reached: `stop` clears the flag between lines 135 and 136, and the thread takes 14 more steps; `stop` clears it between lines 132 and 133, and the thread falls asleep once more.
* **C182** AVL parent() refers to an existing node. After every sequence of calls on an avl_tree, the parent stored in each node (answered by parent()) is a node that is still in the tree, so that following it does not read freed memory.
  * in `Verif/Mem/AvlParents.lean`
  * `C182_links`: exactly which links there are: after every history, a stored parent that is a node of the tree at all is an ancestor from which the way down is one step and then only steps to the other side; with one step only it is the real parent. All other stored parents are nodes that were deleted.
  * `C182_present_partial`: no call but a removal makes a link to a deleted node, and a removal does not if the tree was balanced; so there are none after histories without removals (with or without duplicates), nor after the first removal from a tree without duplicates. Missing: removals from trees that earlier removals (C35) or duplicates (C36) have put out of balance, see `C182_counterexample`.
  * `C182_counterexample`: the claim is false, even without duplicates: at the end 14 hangs left, right, left, right of the root, and its stored parent is node 20, which held 16 and was deleted when 16 was removed; `parent()` of this node answers freed memory.
* **C183** AVL trees that are copied stay shallow. When values are only inserted (no removals, no duplicates) and the program goes on with a copy of the tree now and then, the depth of the tree stays at most logarithmic in the number of its elements.
  * in `Verif/Avl/CopyGrow.lean`
  * `C183_counterexample_linear`: the claim fails as badly as possible: for every `m` there is a program of `2m + 4` insertions with `m` copies after which the tree has `2m + 4` elements, all different, and is deeper than half their number.
  * `C183_counterexample`: the claim fails for every constant.
  * `C183_copies_partial`: the part that holds: copies made after the last insertion are as deep as the original, so logarithmic. Missing: insertions into copies.
* **C184** union_find works for elements that are not equal to themselves. Whatever the == of the elements (NaN is unequal to itself, -0.0 equal to 0.0): an inserted element exists, is found by find_by_elem, and is not inserted a second time.
  * in `Verif/UnionFind/Unequal.lean`
  * `C184_partial`: Every history of calls by element is defined and gives the results that C18 describes for the history in which each element is replaced by its value, and an element that is not equal to itself by a different new element in each call that mentions it. What is missing for the full statement `C184_statement` is false (`C184_counterexample`).
  * `C184_reflexive`: The full statement holds if every element is equal to itself (and `==` is symmetric and transitive).
  * `C184_lost`: An element that is not equal to itself never exists, however often it is inserted: every insertion makes a new set, and no other call can refer to it.
  * `C184_counterexample`: the claim is false for floating point elements: NaN does not exist after its insertion.
* **C185** Semaphore waiters are overtaken a bounded number of times. For a given number of resources and threads there is a bound on how many resources are handed to other threads while one thread waits in lock().
  * in `Verif/Conc/SemFair.lean`
  * `C185_counterexample`: **C185, counterexample:** one resource and two threads; whenever thread 1 releases the resource it wakes up thread 2, and takes the resource back before thread 2 has the mutex. This can go on for any number of turns.
  * `C185_partial`: the part that holds: nobody overtakes without asking. From any state on, a thread is given at most as many resources as it calls `lock` or `try_lock`, and one more when it is in such a call at the beginning; so a thread in `lock` is overtaken, by every other thread, at most once plus once for each further call of that thread. Missing: a bound on these calls.
  * `C185_served`: **C185, the last check counts:** a thread that has the mutex and has found a free resource is not overtaken any more, whatever the other threads do; it keeps its place until it has returned from `lock`.
* **C186** union_set calls take almost constant time on the average. With path compression, which is the default, m calls that end with n sets activate _find at most m*(2 log* n + 6) + n*(log* n + 1) times in all, where log* is the iterated logarithm, at most 4 for every n that fits a size_t.
  * in `Verif/UnionFind/Amortised.lean`
  * `C186_amortised`: **C186:** with path compression, which is the default, any history of `m` calls of `find`, `same`, `join`, `size_of` and `resize` on a `union_set_t` that ends with `n` sets activates `_find` at most `m · (2 · log* n + 6) + n · (log* n + 1)` times.
  * `C186_calls`: what is counted: `_find(x)` returns exactly if it may nest as many activations as are counted.
  * `C186_elements`: for `union_find_t<T, true>` and calls with elements; the time of the hash map is not counted.
  * `C186_constant`: The iterated logarithm of everything that fits a `size_t` is at most four: a call activates `_find` 14 times at most, on the average, and five more times for each element.
* **C187** heap_t height_of() is the level of a position. height_of(pos) is 1 for the root and one more for the children of a position than for the position.
  * in `Verif/Heap/Height.lean`
  * `C187_counterexample`: counterexample: the call for the root is undefined.
  * `C187_counterexample_large`: counterexample for large positions: `2^51 - 2` lies on level 51, whether positions are counted from 0 or from 1, but the logarithm is rounded up and `height_of` gives 52.
  * `C187_exact`: exactly, below `2^47`: `height_of` gives the level of the position before, as if positions were counted from 1. This is the level of the position itself if and only if it is not the leftmost one of its level; siblings at the left edge differ.
  * `C187_partial`: right for the positions below `2^47` that are not the leftmost ones of their levels. Missing: the others.
  * `C187_siblings`: The children of the root: levels 2 and 2, `height_of` gives 1 and 2.
* **C188** Heaps survive exceptions. A call of heap_t that throws (position out of range, length error, allocation, or the move of an element) leaves the elements as they were.
  * in `Verif/Heap/Throw.lean`
  * `C188_counterexample_cut`: counterexample: `set_left(2^62, 9)` cuts a heap of six elements down to four and throws `std::out_of_range`.
  * `C188_counterexample_swap`: counterexample: when the second move of a `swap` throws, an element is lost.
  * `C188_counterexample`
  * `C188_exact`: exactly: what each call does to the elements, for every number `k` of operations that succeed.
  * `C188_partial`: nothing happens when a call throws at its first operation, such as the growth of the vector, or because of its arguments, provided that the positions are those of a heap that fits into memory. Missing: exceptions of later moves, and positions of a quarter of the address space or more.
* **C189** heap_t set_left, set_right and set_root accept references into the heap. When the argument is an element of the heap itself, the value it had is stored at the child position, as any other value would be.
  * in `Verif/Heap/Throw.lean`
  * `C189_counterexample`: counterexample: the vector grows, and the reference to the root dangles.
  * `C189_counterexample_self`: counterexample: a child that is assigned to itself is lost, if a move to itself loses an element.
  * `C189_exact`: exactly, for the child position `c` of `set_left` and `set_right` (and for 0 of `set_root`), an element `v` at `q`, and no exceptions of the elements. If the vector has to move to new memory, the call is undefined. Otherwise it does what it does for any other value, except that the element at `q` is moved from, which is the new child itself if `q = c`.
  * `C189_partial`: with enough capacity, and elements that survive a move to themselves, the child holds the value that the argument had. Missing: the growth beyond the capacity.
* **C190** head() and tail() of an empty heap are reported. head() and tail() of an empty heap_t throw an exception instead of being undefined.
  * in `Verif/Heap/Throw.lean`
  * `C190_counterexample`: counterexample: only the `head()` of a heap that is not `const` is checked.
  * `C190_exact`: exactly: the `head()` of a heap that is not `const` is always defined; the others are if and only if there are elements. Then they are the first and the last element; the first one is at the root.
  * `C190_partial`: on a heap with elements. Missing: the empty heap.
* **C191** Fenwick trees of floating point numbers return what was stored in them. A Fenwick tree of doubles built from finite numbers returns each of them, and after set_value(p, v) position p has the value v; the results of updates and queries are the sums of the elements.
  * in `Verif/Fenwick/FloatingError.lean`, `Verif/Fenwick/FloatingProps.lean`
  * `C191_error_partial`: how wrong a rounded sum can be: after the construction from `n` finite doubles and any number of `update`s, the result of every query differs from the exact sum by at most `2 ((1 + 2^-53)^k - 1)` times the sum of the magnitudes of all numbers that went into the tree, where `k` is the number of elements and updates plus the number of binary digits of `n` plus 1. (No sum overflows if twice that sum, grown by this factor, is within the range of `double`.) Missing for C191: the results are not the exact ones, and `set_value`.
  * `C191_counterexample`: the claim fails: behind the element `2^53` (in any unit) the element 1 is returned as 0.
  * `C191_counterexample_set`: the claim fails for `set_value` too, in a tree with one element: `2^54` is replaced by 0 instead of 1.
  * `C191_counterexample_overflow`: the claim fails when a sum overflows, and for infinite elements: the elements behind are returned as infinite or NaN.
  * `C191_exact_partial`: the part that holds: as long as all sums of neighbouring elements are doubles and so are the differences of the old and new elements of `set_value`, every history of calls returns what it returns on plain lists with exact arithmetic. Missing: everything that is rounded.
  * `C191_whole_partial`: for whole numbers (or whole multiples of any power of two): as long as the magnitudes of the elements of a tree add up to at most `2^52`, every history of calls returns what it returns on plain lists.
* **C192** make_unique leaks nothing. A call whose arguments are made by make_unique either gets one owned object per argument, or throws and leaves the memory as it was.
  * in `Verif/Tools/MakeUnique.lean`
  * `C192_make_unique`: `make_unique` leaks nothing: a call whose arguments are made by it either gets one owned object per argument, or throws and leaves the memory as it was. `fate` ranges over all ways in which allocations and constructors can fail, `vs` over all argument lists in any order.
  * `C192_without_leaks`: Without `make_unique` the two `new` may both come before the owners: the object 10 stays in use for ever when the constructor of 20 throws.
* **C193** Fenwick product trees over class types return the product. A multiplication Fenwick tree whose element type is a class (big integer, fraction, matrix) returns the product of the addressed elements, as for scalar types.
  * in `Verif/Fenwick/ClassProduct.lean`
  * `C193_always_zero`: the claim fails in the worst way: if the default value is a zero (as it is for big integers, fractions and complex numbers), then every query of every tree that any history of calls can build returns zero, whatever was stored in it.
  * `C193_counterexample`: the claim fails: the product of `[2, 3]` is 0.
  * `C193_exact`: exactly as the code behaves, for any default value: each cell has the default value as an extra factor, so that the product of the first `p` elements is wrong by as many factors as `p` has ones in binary; and the default value is divided out once if it counts as true and the range starts at the first element.
  * `C193_identity_partial`: the part that holds: it does if the default value is the identity (as for the identity matrix or permutation), provided that division undoes multiplication by every value that counts as true and only the identity counts as false. Missing: other default values, for which the claim is false (`C193_counterexample`, `C193_always_zero`, `C193_exact`).
* **C194** Command destructors may use their manager. Whatever the destructors of the commands call on the manager, every command that store has got is deleted exactly once, the newest 1024 are kept, and the program ends.
  * in `Verif/Command/ReentrantProps.lean`
  * `C194_once_partial`: safety: if neither the program nor the destructors call `undo`, nothing is undefined and no command is deleted twice, and if the program ends, every command was deleted exactly once. Missing: `undo`, for which the claim is false (`C194_counterexample`), and that the program ends (`C194_ends_partial`, `C194_counterexample_endless`).
  * `C194_history_partial`: the bound: while the program makes calls the manager keeps the newest 1024 commands (fewer only if it got fewer) between any two calls, and the older ones were deleted oldest first, also those that destructors have stored.
  * `C194_ends_partial`: termination: if the destructors store only commands of a lower rank, the program ends.
  * `C194_counterexample`: the claim fails for a destructor that calls `undo` while the manager holds another command: `_second` is empty and `back()` is undefined.
  * `C194_counterexample_endless`: the claim fails for destructors that store new commands for ever: the destructor of the manager does not end.
* **C195** Segment tree queries join from left to right. A query returns the left-to-right join of the addressed elements for every join operation, also for one that rounds or is not associative.
  * in `Verif/Seg/BracketProps.lean`
  * `C195_brackets_partial`: For every transform and every list of queries without updates: each query returns the addressed elements, each of them once and in order, joined in some brackets, at most `⌈log2 n⌉` deep.
  * `C195_repeat_partial`: A query without updates leaves the whole tree, every cell of the heap, as it was: asking again, whatever was asked in between, gives the same value bit by bit, also with a rounding `join`.
  * `C195_error_partial`: Sums of `double`s: with no overflow in sight, the result of a query is finite and differs from the exact sum by at most `((1 + 2^-53)^d - 1)` times the sum of the magnitudes of the ADDRESSED elements, where `d = ⌈log2 n⌉`. (The range queries of a Fenwick tree also suffer from the elements before the range, C191.)
  * `C195_exact`: The left-to-right claim holds for a `join` exactly if it is associative.
  * `C195_counterexample`: `2^53 + (1 + 1)` is exact, but from left to right both ones are lost.
  * `C195_counterexample_minus`: Subtraction, also in the library's own `range_operation_t` (segment_tree.h:555-584) over `size_t`: `10 - (3 - 2)` instead of `10 - 3 - 2`.
* **C196** max_sum_of over floating point numbers. max_sum_of of doubles is the greatest of the (left-to-right, rounded) sums of the subarrays; for finite numbers it is within rounding of the greatest exact sum.
  * in `Verif/Seqs/MaxSumFloat.lean`
  * `C196_doubled_partial`: What is computed in every case without NaN: the greatest sum of the sequence whose first element, if positive, is doubled (with rounding: infinite if that overflows). Although sums are rounded at every step and the loop keeps only one of them, no subarray has a greater rounded sum.
  * `C196_max_partial`: What holds: the empty sequence, sequences that do not start with a positive number, and, always, an upper bound of all sums. Missing: sequences that start with a positive number (`C196_doubled_partial` says what is computed) and NaN (`C196_nan_partial`).
  * `C196_nan_partial`: With a NaN in the sequence: everything up to the last NaN is forgotten, whatever the sums were; if it is the last element, the result is NaN. From there on the answer is right, also if the next element is positive.
  * `C196_counterexample`: `max_sum_of` of the one number 5 is 10.
  * `C196_counterexample_nan`: The greatest sum is lost: `5, NaN, 1` gives 1, `5, NaN` gives NaN, and so does the difference of infinities at the end of a sum only if it is an element; `inf, -inf` gives `inf`.
  * `C196_whole_partial`: For numbers that are whole multiples of one power of two (such as whole numbers) and small enough for 53 bits in total, no sum is rounded: the result is the one for whole numbers (C75).
  * `C196_error_partial`: With rounding: for finite numbers of which the first is not positive, and no overflow in sight, the result differs from the greatest exact sum by at most `(1 + 2^-53)^n - 1` times the sum of all magnitudes.
* **C197** Variadic functors over floating point numbers. sum_t of several doubles is their sum from left to right; minimum_t and maximum_t return the least and greatest of the arguments that are numbers.
  * in `Verif/Tools/MathFloat.lean`
  * `C197_exact`: The arguments are combined from right to left: the result for all arguments is the one from left to right exactly if the operation is associative.
  * `C197_error_partial`: With rounding: for finite arguments and no overflow in sight, the variadic sum differs from the exact sum by at most `(1 + 2^-53)^n - 1` times the sum of the magnitudes, where `n` is the number of additions.
  * `C197_whole_partial`: For whole multiples of one power of two, small enough for 53 bits in total, both orders give the exact sum.
  * `C197_extremes_partial`: Minimum and maximum are right if the first argument is a number, whatever NaNs follow; if it is a NaN, so is the result, whatever numbers follow.
  * `C197_order_partial`: Without NaN the order of the arguments does not matter to minimum and maximum.
  * `C197_counterexample`: `sum_t<double>{}(2^53, 1, 1)` is `2^53 + 2`, but `2^53 + 1 + 1` is `2^53`.
  * `C197_counterexample_nan`: The minimum of a NaN and 1 depends on their order.
* **C198** Segment tree minima and maxima of floating point numbers. In a segment tree that joins doubles with std::min or std::max, a query returns the least or greatest of the addressed elements that are numbers.
  * in `Verif/Seg/MinFloat.lean`
  * `C198_number_partial`: Proved: if no NaN is addressed (other elements may be NaN), minima and maxima are right, with infinities. Missing: NaN among the addressed elements, for which it is false.
  * `C198_nan_partial`: With NaN: the answer is one of the addressed elements; it is a NaN exactly if the first of them is one; and every number before the first NaN counts. (Whether those after a NaN count depends on the brackets.)
  * `C198_counterexample`: The minimum of `3, NaN, 1` is given as 3 at positions 1 to 3 of `5, 3, NaN, 1`.
  * `C198_counterexample_position`: The same three elements give different answers at different positions.
* **C199** sum_of_subsets over floating point numbers. sum_of_subsets of finite doubles returns the number of subsets whose exact sum is the wanted one.
  * in `Verif/Seqs/SubsetFloat.lean`
  * `C199_rounded_partial`: What is computed for every sequence of doubles, whichever operand is evaluated first: the subsets are counted that leave nothing when their elements are subtracted in order, with rounding. The memo, with NaN as keys that are never found, does not change that.
  * `C199_whole_partial`
  * `C199_nan_partial`: No subset with a NaN counts.
  * `C199_calls_nan`: "It uses dynamic programming", but for the sum NaN it makes all `2^(n+1) - 1` calls.
  * `C199_counterexample`: `1 + 1 + (2^54 - 2)` is `2^54`, but that subset is not found.
  * `C199_counterexample_spurious`: `1 + 2^54` is not `2^54`, but that subset is counted.
  * `C199_counterexample_order`: The result depends on the order of the elements.
* **C200** CSV files with Windows line endings. A CSV file whose lines end with \r\n gives the same rows as the same file with lines that end with \n.
  * in `Verif/Tools/CsvCrLf.lean`
  * `C200_rows_partial`: Proved: if no line after the skipped ones is empty or ends with the separator, both files give the same rows, with the same numbers, up to a "\r" at the end of the text of the last field of each row; also the same exceptions. Missing: the "\r" itself, and the other lines.
  * `C200_numbers_partial`: The numbers of a field do not change.
  * `C200_fields_partial`: Text columns only: a line that is empty or ends with the separator has one field more, "\r", than with Unix line endings, where the last, empty field is lost; all other lines have the same number of fields.
  * `C200_counterexample`: For every library: the "\r" becomes part of a text.
  * `C200_counterexample_empty`: An empty line, harmless at the end of a Unix file, makes a file of numbers throw.
  * `C200_counterexample_separator`: A row that ends with a separator is read from a Unix file; in a Windows file it has a field too many and ends the reading.
* **C201** LRU cache reserves room for its capacity. set_capacity is defined for every capacity and reserves room for all elements of the cache, so that the map is never rehashed while the cache is filled.
  * in `Verif/Cache/Reserve.lean`
  * `C201_defined_partial`: Every capacity below `2^58` can be set; none of `2^59` or more can be, unless as much has been reserved before: the conversion to `size_t` is undefined.
  * `C201_rehashes_partial`: A cache made with a capacity rehashes its map at most once for each time that its capacity was set, however many elements come and go.
  * `C201_fixed_partial`: With a capacity of two or more that is not changed, it never does.
  * `C201_counterexample`: A capacity of `2^59` is undefined behaviour.
  * `C201_counterexample_rehash`: A cache of capacity 1024 made by the default constructor has reserved nothing: it rehashes while it is filled; and a cache made for two elements that is then set to the four that are reserved rehashes at the fifth.
* **C202** Segment trees of signed integers overflow only if an answer does. If the sum (or product) of every section of the input fits the integer type, neither build nor any query of a segment tree overflows, and every answer is exact; otherwise some query overflows.
  * in `Verif/Seg/Signed.lean`
  * `C202_fits`: No overflow: if all sections fit the type, `build` and every sequence of queries are free of overflow and every answer is exact.
  * `C202_exact`: Exactly then: a section of two or more elements that does not fit makes the query for it overflow.
  * `C202_int`: Sums and products of `int`.
* **C203** Segment trees can be walked from head() with lower_bound() and upper_bound(). head() is the node of the whole array, and lower_bound() and upper_bound() of a node are the nodes of its halves; all three may always be called.
  * in `Verif/Seg/Navigate.lean`
  * `C203_bounds_partial`: After every history of calls that begins with an array and in which no empty array is passed: `head()` is the whole array, and every path of bounds through intervals of two or more elements leads to the node of the half that the documentation promises.
  * `C203_locate_partial`: The leaf of every position is found with `d` steps down from the head if the array has at most `2^d` elements.
  * `C203_counterexample`: In a tree of six elements the last leaf of the lowest level has index 12; its upper bound is cell 26 of a heap of 24.
  * `C203_counterexample_head`: After `rebuild({})` the head is still that of the old array; the head of a tree that was never built is reported by the one `head()`, but undefined for the constant one; and the lower bound of a leaf can be a node that was never built, or one of a larger array before.
* **C204** References to cached elements stay valid while the element is cached. A reference or iterator to an element of an LRU cache may be read as long as the element stays in the cache.
  * in `Verif/Cache/References.lean`
  * `C204_exact_partial`: Exactly how long a reference is valid: until its element leaves the cache or is promoted by `find` or `operator[]` from another place than the front. From then on reading it is undefined for ever.
  * `C204_loop_partial`: A loop over the cache that calls `find` for every element is undefined exactly if the cache has two elements or more.
  * `C204_counterexample`: `auto& r = cache[1]; cache[2]; cache[1];`: the reference `r` to the element 1, which was in the cache all the time, is dangling.
* **C205** References to values in an AVL tree stay valid until the value is removed. A reference to a value in an AVL tree reads that value until a call removes the value from the tree; inserting and removing other values does not affect it.
  * in `Verif/Mem/Stable.lean`
  * `C205_insert_partial`: the part that holds for the calls that remove nothing: after `insert` (of a copy or a reference), and after enabling or disabling duplicates, every reference to a value in any tree reads the same value, whatever the rotations did. Missing: `remove` and `remove_all` of another value, where `C205_remove_exact` says which reference is lost.
  * `C205_other_partial`: the part that holds for other trees: no call on a tree touches the nodes of another tree, not even `clear`.
  * `C205_remove_exact`: exactly which references `remove(x)` spoils in a tree without duplicates. If the node of `x` has two children, the node of the next value is deleted, though that value stays in the tree, and a reference to `x` reads the next value from then on. If it has not, the node of `x` is deleted. All other references read what they read before.
  * `C205_counterexample`: the claim fails: in a tree with the values 1, 2 and 3, `remove(2)` deletes the node of 3.
* **C206** Fenwick products of signed integers do not overflow. If every product of neighbouring elements fits the signed element type before and after each call, no call on a Fenwick tree of products overflows, and every answer is that of exact integers.
  * in `Verif/Fenwick/SignedProduct.lean`
  * `C206_product_partial`: the part that holds: no call overflows if in addition the quotient of the new and the old value of every `set_value` fits. Missing: `set_value` that replaces -1 by the least value of the type (`C206_set_value_exact`).
  * `C206_set_value_exact`: exactly: when the products fit before and after it and nothing is divided by zero, `set_value` on a two's complement type overflows if and only if it replaces -1 by the least value.
  * `C206_counterexample`: the claim fails for every two's complement type: a tree with the one element -1, which `set_value` replaces by the least value.
  * `C206_exact`: the converse: a tree without zeros is built, and answers every query, without overflow exactly if the products of all ranges of its elements fit.
  * `C206_update_exact`: the converse for updates: after any history the cells of which fit, a multiplication of an element by `v ≠ 0` and all queries after it return exactly if the products of all ranges of the new elements fit.
* **C207** Recursion in AVL trees takes a logarithmic stack. The recursive functions of an AVL tree (insert, remove, remove_all, contains, the traversals, copying, clear and the destructor) nest a number of calls that is at most logarithmic in the number of elements.
  * in `Verif/Avl/Stack.lean`
  * `C207_height_partial`: after every history, room for one nested call more than `height()` returns is enough for every call. Missing: that the height is logarithmic, which fails (`C207_counterexample`).
  * `C207_insertions_partial`: after insertions only, without duplicates, a logarithmic number of nested calls is enough; a stack with room for 131 of them is enough for every tree with less than 2^64 elements.
  * `C207_exact`: destroying and copying the tree and `pos_order` need as many nested calls as the tree is deep: with less room they overflow the stack.
  * `C207_counterexample_linear`: the claim fails: for every size `K` of the stack there is a history of `8 + 41·K` insertions and removals after which the tree has `K + 8` elements and cannot be destroyed, cleared, copied or traversed without a stack overflow.
  * `C207_counterexample`: the claim fails for every constant.
* **C208** Recursion in segment trees takes a logarithmic stack. Building, querying and updating a segment tree of at most 2^d elements nests at most d + 1 calls; 65 nested calls are enough for every tree.
  * in `Verif/Seg/Stack.lean`
  * `C208_stack`: after every history of calls, on a tree of at most `2^d` elements, queries, updates and rebuilding from at most `2^d` elements have their results if the stack has room for more than `d` nested calls.
  * `C208_any`: room for 65 nested calls is enough for every tree, as it has at most 2^64 elements.
  * `C208_exact`: the bound is exact: building a tree of more than `2^d` elements overflows a stack with room for `d + 1` nested calls or less.
* **C209** sum_of_subsets nests one call for each element. sum_of_subsets of n elements nests exactly n + 1 calls (fewer where the memo has the answer), and gives the right count on every stack with room for them.
  * in `Verif/Seqs/Stack.lean`
  * `C209_exact`: `sum_of_subsets` gives the right count on a stack with room for one nested call more than there are elements, whatever they are, whatever the sum and whichever operand of the sum is evaluated first; with less room it always overflows the stack.
  * `C209_shared`: for the second overload: calls that share a memo never need more room than one nested call more than there are elements.
  * `C209_memoised`: a sum that is memoised already takes a single call.
  * `C209_unbounded`: no stack is large enough for all sequences; twice the elements need twice the stack.
* **C210** Recursion in n-ary trees nests as many calls as the tree has levels. The destructor, clear, in_order, pre_order and pos_order of an n-ary tree nest at most as many calls as there are nodes on the longest path from the root, and exactly as many unless the callback stops the traversal.
  * in `Verif/Nary/Stack.lean`
  * `C210_enough`: on a stack with room for as many nested calls as the tree has levels, the destructor and the three traversals return what they return on an unlimited stack, whatever the callback does.
  * `C210_exact`: exactly: with less room the destructor and `pos_order` always overflow the stack, and so do the other traversals with a callback that does not stop.
  * `C210_chain`: a tree has as many levels as nodes if it is a chain, which is how a tree of `max_node_size` 1 always looks: no stack is large enough to destroy all trees.
  * `C210_size`: there are never more levels than nodes.
* **C211** CSV fields in double quotes. Reading a CSV file in which fields with separators, quotes or newlines are written in double quotes (RFC 4180) gives back the texts of the fields.
  * in `Verif/Tools/CsvQuote.lean`
  * `C211_exact`: exactly: the texts come back if and only if no field needs quotes.
  * `C211_plain_partial`: **C211, partial.** Full claim: `C211_statement`. Proved for fields that need no quotes. Missing: the others, none of which is read right (`C211_exact`, `C211_counterexample`).
  * `C211_quotes_partial`: **C211, partial**: what is read of fields that have quotes, but no separators and newlines: the text with the quotes around it and the doubled ones.
  * `C211_counterexample`: the claim fails for every separator.
  * `C211_counterexample_lost`: the claim fails: a field with a separator is split and, in a file with one column, ends the reading: the rows after it are lost without any error.
* **C212** Few nodes wait in the searches of a tree. In depth_first_search of a tree with L levels whose nodes have at most m children at most (m - 1)(L - 1) + 1 nodes wait in the stack, and in breadth_first_search at most as many wait in the queue as two neighbouring levels have; in neither do more nodes wait than the tree has leaves.
  * in `Verif/Nary/Waiting.lean`
  * `C212_same`: the loops with the meter do what the searches do.
  * `C212_depth_first`: depth first: in a tree of `levels + 1` levels whose nodes have at most `m` children, at most `(m - 1) · levels + 1` nodes wait, whatever the callback does.
  * `C212_binary`: for binary trees: never more nodes wait than the tree has levels.
  * `C212_breadth_first`: breadth first: never more nodes wait than two neighbouring levels have, whatever the callback does.
  * `C212_exact`: exactly: a full tree needs all of it.
  * `C212_leaves`: neither search ever lets more nodes wait than the tree has leaves.
  * `C212_widest`: a breadth first search that does not stop lets every level wait as a whole, so the queue needs room for the widest level.
  * `C212_even`: if all leaves are on one level, a breadth first search that does not stop needs room for exactly the leaves.
* **C213** from_string for enumerations of every underlying type. from_string ends and gives the first value from minimum below maximum with the given name, or maximum if there is none, for enumerations over signed or unsigned types with up to 64 bits and for negative values; with the to_string of the documentation and the default bounds every value below MAX comes back and every other one gives MAX.
  * in `Verif/Tools/EnumType.lean`
  * `C213_first`: the first value from `minimum` below `maximum` whose name is the string is found, after its name and those of the values before it were asked for.
  * `C213_unknown`: a string that is no name of these values gives `maximum`, after the names of all of them were asked for.
  * `C213_rounds`: exactly: without a match the condition is tested once for each value and once more.
  * `C213_inverse`: with distinct names `from_string` inverts `to_string`.
  * `C213_documented`: for the documented `to_string` with distinct names, and the default bounds: a value below `MAX` comes back, any other value of the type gives `MAX`.
  * `C213_negative`: with the documented `to_string` and a negative `minimum`, the name of `MAX` gives `minimum`.
* **C214** next_random for ranges of signed integers. next_random<int_type>(start, end) for a signed int_type and start <= end is defined and returns a number between start and end inclusive; every number of the range can be drawn.
  * in `Verif/Tools/RandomSigned.lean`
  * `C214_exact`: exactly: undefined behaviour for a range from a negative number to one that is not, otherwise the numbers of the range in turn.
  * `C214_range_partial`: the part that holds: a range of negative numbers, or of numbers that are not negative. Missing: ranges that contain both.
  * `C214_onto_partial`: there every number of the range is drawn for some output of the generator.
  * `C214_counterexample`: the claim fails for every signed type: the range from -1 to 0.
* **C215** sum_of_subsets of unsigned numbers. sum_of_subsets of unsigned numbers returns, modulo 2^64, the number of subsets of the positions whose elements add up to sum.
  * in `Verif/Seqs/SubsetUnsigned.lean`
  * `C215_wrapped`: what the code computes for every unsigned type: subsets whose sums agree with `s` modulo `2^w` are counted.
  * `C215_count_partial`: where the sum of the whole sequence fits the element type. Missing: sequences whose total does not fit, for which subsets that overshoot `s` by a multiple of `2^w` are counted as well (`C215_counterexample`).
  * `C215_atleast`: the count is never too small: every subset that adds up to `s` is among those counted.
  * `C215_exact`: exactly when the count is right: for fewer than 64 elements it is the number of subsets that add up to `s` iff no subset overshoots `s` by a multiple of `2^w`.
  * `C215_counterexample`: does not hold: among the bytes 200 and 56 only the empty subset adds up to 0, but both together are counted too.
* **C216** max_sum_of of unsigned numbers. max_sum_of of unsigned numbers returns the greatest sum of a non-empty contiguous subarray if that fits the type, and 0 for the empty sequence.
  * in `Verif/Seqs/MaxSumUnsigned.lean`
  * `C216_twice`: what the code computes while nothing wraps around: the first element is counted twice.
  * `C216_exact`: exactly: while nothing wraps around the answer is right iff the first element is 0.
  * `C216_max_partial`: for the empty sequence and for sequences that begin with 0. Missing: other sequences, where the first element is counted twice (`C216_exact`) or that sum wraps around.
  * `C216_element`: also where sums wrap around: the answer is at least every single element.
  * `C216_counterexample`: does not hold: the greatest sum of the sequence 1 is 1, and the answer is 2.
* **C217** max_length_of_sum of unsigned numbers. For unsigned numbers at least as wide as int a positive answer of max_length_of_sum is the length of a contiguous subarray with the required sum, and the answer is 0 exactly when no non-empty subarray has it.
  * in `Verif/Seqs/MaxLengthAgree.lean`, `Verif/Seqs/MaxLengthUnsigned.lean`
  * `C217_agrees`: where the sum of the whole sequence fits the type the answer is that for the same integers, so that all that is known about those (C73, C74) holds.
  * `C217_wrapped`: what the code computes: sums agree modulo `2^w`.
  * `C217_sound_partial`: where the sum of the whole sequence fits the type. Missing: other sequences, where a sum that wraps around to the required one is taken for it (`C217_counterexample`).
  * `C217_found`: no subarray is missed altogether: if one has the required sum the answer is not 0.
  * `C217_counterexample`: does not hold: no subarray of `2^31, 2^31` has the sum 0, but the answer for 32 bits is 2.
* **C218** max_length_of_sum of narrow unsigned numbers. For unsigned numbers narrower than int a positive answer of max_length_of_sum is the length of a contiguous subarray with the required sum, and the answer is 0 exactly when no non-empty subarray has it.
  * in `Verif/Seqs/MaxLengthAgree.lean`, `Verif/Seqs/MaxLengthNarrow.lean`
  * `C218_width`: C218: the width of the type does not matter where the sum of the whole sequence fits.
  * `C218_agrees`: where the sum of the whole sequence fits the type the answer is that for the same integers.
  * `C218_sound_partial`: where the sum of the whole sequence fits the type. Missing: other sequences, for which subarrays are missed and others taken for them (`C218_counterexample`).
  * `C218_missed`: unlike `C217_found`: among the bytes 200 and 100 the subarray 100 is missed, since the second sum wraps around and the difference does not.
  * `C218_counterexample`: does not hold.

## 5. Where the code disagrees with its documentation

Every entry is a theorem `Cnn_counterexample…` in Lean.

Structures
* Fenwick tree: the product tree divides by zero or loses zeros (C06, C07, C106); `resize(0)` leaves a tree whose
  queries read outside the array (C09); `update(p, tree[q])` takes its argument by reference into the array it changes
  (C105); `set_value` forms the difference of the new and the old value, which may overflow although all sums fit (C142); on product trees it divides by the old value, which overflows (`INT_MIN / -1`) when -1 is replaced by the least value of the type although all products fit (C206).
  Over `double` a small element behind a large one is returned as 0, `set_value` may store another value than it was given, and one sum that
  overflows makes later elements infinite or NaN (C191; the results are exact as long as the sums and differences are, and otherwise the
  error has a proved bound). Product trees over class types start with `T{}` in every cell: if that is a zero, as for most number classes, every query of every
  tree returns zero (C193).
* `union_set_t`: `insert` of a new id does not insert it, `insert` of an existing id damages its class; there is no state and no id for
  which it does what its description says (C16, `C16_never`);
  `acorn` is not decremented by joins (C17). `union_find_t`: the calls by set id look the id up as a key (C19);
  `emplace` does not compile when it is used (`std::make_pair<T, size_t>(…, id)` with an lvalue), so it has no behaviour to model. A failed
  `insert` leaves the element in the map without an item, so that later calls read out of bounds or report it joined to the next
  element; a failed `resize` of `union_set_t` leaves sets without rank (C154). With floating point elements every `insert(NaN)` makes a new
  set that no call can refer to, and NaN never exists (C184).
* LRU cache: `operator[]` at capacity 0 dereferences a singular iterator (C25); a copied cache keeps iterators into the
  original list (C26); `remove(cache.most_recent())` reads freed memory (C28); an override of `on_discard` that
  clears the cache, adds a key, lowers the capacity or clips makes `clip` discard a wrong node, pop from an empty list or recurse
  for ever, because the node being discarded is still in the list (C140); an exception of `_map[key]` in `add`, of `on_discard`,
  of `push_front`/`_map[key]` in `move_to_front` or of `_map.erase` in `remove` leaves nodes without map entry or map entries
  that point to erased nodes (C141; `clear()` repairs the cache). With floating point keys `cache[NaN]` dereferences a singular
  iterator, NaN cannot be found or removed, and each `add(NaN)` leaves a map entry that only `clear()` removes, so the map outgrows
  any capacity (C164).
* `move_to_front` erases the node of the element and makes a new one (cache.h:307-315; `std::list::splice` would keep it): `find` and `operator[]` invalidate all references and iterators to an element that
  was not in front. `auto& r = cache[1]; cache[2]; cache[1];` leaves `r` dangling, and a loop over the cache that calls `find` is undefined from two elements on (C204).
* `set_capacity` (cache.h:189-192) converts `capacity * (1 + log2(capacity))` to `size_t`: undefined behaviour for capacities of 2^59 and above. A default-constructed cache has `_max_capacity`
  1024 although nothing was reserved, so `set_capacity` up to 1024 reserves nothing and the map is rehashed while it is filled; so is one whose capacity is set to exactly what was reserved before, since
  `add` inserts before it clips (C201).
* `remove` of a value whose AVL node has two children copies the next value into the node and deletes the node of the next value (binary_tree.h:906-910): a reference to the next value, which stays in the
  tree, dangles, and a reference to the removed value reads the next one. In a tree without duplicates all other references survive every `insert` and `remove` (C205).
* AVL tree: removal uses the double rotation for equally deep grandchildren and loses balance (C35); so does inserting
  duplicates (C36); copies have height 1 everywhere (C39), so with a copy after
  every second insertion the tree becomes a list (C183); assignment from an empty tree keeps the old nodes (C39, C53);
  a moved-from tree keeps its `size()` (C40); inner subtrees moved by a rotation keep a stale parent (C41),
  which dangles once the node it names is deleted (C182).
* AVL tree degenerates: the code rotates for a height difference of exactly 2, so a node whose subtrees differ by 3 or more
  is never repaired. `badOps m`, 8 + 41m insertions and removals, leaves m + 8 elements in a tree of height m + 4 (C121). So the
  documented complexity of `remove_all`, O(repeated_values * log(n)), does not hold, nor do the other calls take logarithmic time (C171). With
  duplicates `remove` can visit d (d + 1) / 2 nodes in a tree of depth d, since it searches the least element at every level again. For the same reason the recursive
  functions, the destructor among them, need a stack linear in the number of elements: any stack overflows after enough insertions and removals (C207). The destructor of an n-ary tree
  nests a call for each level (C210), `sum_of_subsets` one for each element (C209).
* AVL tree and exceptions: `remove` overwrites the value of a node with two children before it removes the successor; if a comparison
  then throws, the removed value is gone and the successor is in the tree twice. `insert` compares again after the insertion, in
  `rotate_if_needed`; if that throws, the value is in the tree, but not balanced and with wrong heights, for good (C155).
* AVL tree and NaN: an element that is neither less nor greater counts as equal, so `remove(NaN)` takes the value at the
  root from the tree and reports success, `remove_all(NaN)` empties the tree, a non-empty tree refuses NaN, and a tree that
  holds NaN refuses every value. With duplicates an inserted number may not be found, and `remove` may report `false`
  although it has overwritten an element (C163).
* AVL tree memory: assignment to a non-empty tree leaks its nodes, self-assignment (copy or move) leaks the whole tree
  (C117, exact: a node is lost if and only if an assignment overwrites a non-empty tree; once lost it stays lost), `a = a` leaves a single default value (C118), `t.remove_all(t.root().get())` and any other reference into the
  tree removes further values and then reads a deleted node (C120).
* Plain binary trees: `n = n.left()` deletes its source and then reads it, `n.left() = n` copies for ever (C122); `n = n`
  loses the children, `t = t` the whole tree, and `t = u` with an empty `u` keeps the old nodes (C123); moving from a node that
  is not a root clears the parent of the source (C124); `t = u` leaks the nodes of `t`, and `n.left() = std::move(n)` makes
  a cycle that no tree reaches (C125, exact for memory-safe programs); `t.add_root(t.root().get())` reads a deleted node (C126).
* `avl_tree_t` hides the nodes behind `const`, but inherits the public `add_root`: `t.add_root(5)` leaves `size()` at 0, and
  `t.remove(5)` then makes it 2^64 - 1.  Through a reference to the base class `set_value` brings the values out of order;
  `contains` then misses values that are there and `insert` adds them twice (C137).  Memory stays safe as far as it is for plain
  binary trees (C136).
* Traversals read the children of a node after the callback has seen it: with `t.remove(n.get())` in the callback `in_order`,
  `pre_order` and both searches read the deleted node, the searches even when the callback asks them to stop; `pos_order` reads
  nodes that a callback deleted above or beside the visited one, and misses nodes that a rotation moved.  `pre_order` with a
  callback that calls `add_left` on its node does not end.  Changes below the visited node are harmless (C138), and so are changes
  of values (C139).
* N-ary trees and exceptions: `add_child` leaks the new node if `push_back` throws; `add_root` has deleted the old tree, and `replace_at` deletes
  the child it should return, if the new node cannot be made; `insert_at` leaves null slots, so that `add_child` may be refused for a
  node without children; `swap` loses a value, assignments are left half done, and the copy constructor of a tree leaks its root (C158).
* Binary trees and exceptions: an assignment of nodes deletes the children of the target first, and an exception leaves a part of the copy with default
  values and with null parents; a move that throws has moved the children but not the value; `add_root`, `swap` and the copies of trees fail as for
  n-ary trees (C159).
* `tree_node_t` can be neither copied nor moved by its constructors (tree.h:267-288): these are templates, and the declared move assignment
  deletes the copy constructors of `tree_node_t` and `base_node_t`, so their use does not compile.
* N-ary trees on memory: copying a node or tree with children shares them, and destroying both owners deletes them twice (C129:
  proved for every such copy that is followed by the destruction of the two owners; a later assignment can repair the sharing);
  `n = std::move(n)` loses the children (C130); node assignment copies the parent pointer, and moved children keep the old
  parent, which may be deleted (C131); node assignment leaks the children of its target (C132, exact for memory-safe programs).
* Trees: a true result of the callback does not stop `in_order`/`pre_order` (C46) or, on leaves, the n-ary `in_order`
  (C51); `replace_at` beyond the limit writes out of bounds (C48); copying an n-ary tree shares the children, which are
  deleted twice (C52); copy assignment leaks the old nodes and destroys the tree on self assignment (C53, C54).
* Segment tree: `rebuild({})` of a built tree keeps the old contents (C60). Also: `range_operation_t::join` compiles
  for `size_t` only; the number of cells is computed in floating point (C56_float shows that a relative error of `2^-33` does no harm).
* Fenwick trees and exceptions: an update that throws has added its value at the position and is missing it at a later one; `_build` clears the
  array only of built trees, so a first build that threw and is tried again adds to what it had left: wrong sums (C161).
* Segment tree accessors: `lower_bound`/`upper_bound` of a leaf return a node that was never built (or one of an older array), and read outside the heap for some sizes: with six elements the leaf 12
  has the upper bound 26 in a heap of 24 nodes. `head() const` of an unbuilt tree is undefined; after `rebuild({})` `head()` is that of the old array (C203).
* Segment tree, cost: `_range_query` stops at a node that matches its interval only if no update is pending there. Otherwise it descends into
  the whole subtree, although the value of the node is up to date: a query of all n elements after an update of all of them visits 2n - 1
  nodes instead of one (C170). `_range_update` does not have this defect, since it also stops where `criteria` allows it.
* Segment tree, order of joins: the elements are joined in the brackets of the tree, not from left to right, so `range_operation_t` with a
  subtraction returns `10 - (3 - 2)` for `10, 3, 2`; the claim holds exactly for the associative operations (C195). Minima of doubles
  with NaN therefore depend on the position: a NaN that begins the right part of a query hides the numbers after it (C198).
* Segment trees and exceptions: an update that throws leaves the nodes above the element it had reached with old values, so that queries of
  several elements return wrong values until that element has been read by itself; a `rebuild` with another number of elements that throws
  leaves a tree that counts as built but has the new size only on paper, and the next query is undefined (C160).
* `heap_t::set_left/set_right` throw when the child position equals the size (C63). From position 2^62 - 1 on, the new size wraps around:
  the heap is cut to a few elements before the call throws (C188). A `swap` whose second or third move throws loses an element (C188).
  An argument that is an element of the heap dangles when the vector grows beyond its capacity (C189). `head()` of a `const` heap and
  `tail()` are undefined on an empty heap, the other `head()` throws (C190).
* `heap_t::height_of` counts positions from 1 where all other functions count from 0: undefined for the root, one too small for the
  leftmost position of each level, and one too large just below powers of two from about 2^50 on, where the logarithm is
  rounded up (C187).
* `command_manager_t`: `store` has no return statement, `undo` pops the wrong deque (C64, C65). It deletes its commands but has the
  implicit copy operations: copies of a manager that holds a command delete it twice, an assignment loses those of its target (C174).
  Its loops take a command from the deque before they delete it, so that destructors may call `store` and `dispose`; with `undo` they are undefined, and
  destructors that keep storing new commands keep the manager's destructor from ending (C194).

Sequences
* Arithmetic search: elements missing from the last quarter, and complete sequences, make it read past the end or throw
  (C67). Geometric search: two elements left, and the last quarter (C69). The floating point overload never goes left
  (C107). "O(log n)" is false for integers: for infinitely many n the searches take n iterations and then throw (C167); the floating point
  overload takes at most three.
* `max_length_of_sum` does not enter a prefix equal to the required sum (C74). `max_sum_of` counts a positive first
  element twice (C75). Signed overflow although all sums fit: `max_length_of_sum` subtracts the required sum from every prefix
  sum (C143), `max_sum_of` doubles the first element (C144), `sum_of_subsets` subtracts the elements from the wanted sum (C145);
  each is proved exactly: which inputs overflow and which do not. Over floating point numbers `max_length_of_sum` truncates the sums
  and can report a subarray that does not exist (C153). `max_sum_of` over doubles forgets everything
  before a NaN (`5, NaN, 1` gives 1), and doubling the first element may overflow to infinity (C196). `sum_of_subsets` over doubles subtracts the elements one
  after the other with rounding: subsets are missed (`1, 1, 2^54 - 2` for `2^54`) or counted by mistake; a NaN is never found in the memo, so that the wanted sum NaN
  takes 2^(n+1) - 1 calls (C199). With iterators that can only be incremented it takes n (n + 3) / 2 steps, not O(n),
  because it measures `std::distance(first, it)` for every element (C172).
* The arithmetic search computes `distance * factor` in a type that is no wider than a 64 bit element: it overflows for progressions that span
  more than half the range (C156). The geometric search computes powers with `std::pow` in double precision: elements of 2^53 or more may
  not be found, and the conversion of the result back can be undefined (C157).

Tools
* CSV: text columns leave the numbers uninitialised, double columns convert NaN to `int` (C84). A row that is too long
  ends the reading (C85). A trailing empty field is lost (C83). With Windows line endings the last text of every row has a `\r`; an empty line becomes a field
  (which throws in a column of numbers), and a row that ends with a separator has one field more, which may end the reading (C200).
  Quotes mean nothing to the reader: no table with a field that needs them is read right, and one with a separator may end the reading (C211).
* `from_string`: with the `to_string` of the documentation and a negative `minimum` the name of `MAX` gives `minimum`, because negative values, converted to `size_t`, get the name of `MAX` (C213_negative). The documented enumeration has no negative values.
* `next_random` with a signed type converts its bounds to `unsigned long`: a range from a negative number to one that is not has its bounds in the wrong order, which is undefined; ranges of negative numbers only work (C214).
* `sum_of_subsets` of unsigned numbers subtracts modulo `2^w`, so subsets that overshoot the sum by a multiple of `2^w` are counted as well: 2 instead of 1 for the bytes 200 and 56 and the sum 0 (C215).
* `max_sum_of` of unsigned numbers counts the first element twice: the answer is right only if that is 0, unless a sum wraps around (C216).
* `max_length_of_sum` of unsigned numbers compares sums modulo `2^w`: the answer for `2^31, 2^31` and the sum 0 is 2 with 32 bits (C217). For unsigned types narrower than `int` the difference is an `int` that does not wrap around, so that subarrays are missed: the answer for the bytes 200 and 100 and the sum 100 is 0 (C218).
* The predefined delimiter filters pass negative characters to `std::isalpha` and the like where `char` is signed: making any
  of them is undefined (C150). The random functions share a static generator without a mutex: threads can get the same number and
  race (C151).
* The variadic `sum_t` adds from right to left: over doubles `sum_t(2^53, 1, 1)` is not `2^53 + 1 + 1`. `minimum_t` and `maximum_t` of doubles return
  NaN if the first argument is one and ignore it elsewhere (C197).
* `next_random` needs a generator whose `result_type` is as wide as its arguments (C86). `next_random_double` is undefined if
  `end - start` exceeds the greatest double (C165). `memory.h` has no include guard: a file that includes it twice does not compile (no theorem).

Concurrency
* `lockable_t`: the constructor from an rvalue of the wrapped type copies, `T(other)` (C149), and therefore does not compile for types that
  cannot be copied. Its assignments and copies do not take the mutex (C148 shows that the callers must).
* Semaphore: `max_count` races with `set_available_resources` (C108); raising the limit wakes one waiter only, the
  others depend on their timeout (C91, C177); otherwise the notifications suffice without any timeout. There is no queue of waiting
  threads: a thread that unlocks and locks again can overtake a waiting thread any number of times (C185).
* Message queue: a message received just before `stop` may never be processed (C94); `_queue.empty()` and `_running`
  are read without the mutex (C109); `_stopped` is never reset, a restarted queue ends at once (C110). The base class
  stops and joins only after the derived class is gone: a message that waits at that moment, even after `stop`, makes the
  worker call the pure virtual `on_new_message`, unless the derived destructor calls `safe_delete` — which the comments
  ask only of those who override `on_start` or `on_stop` (C134). "All methods are reentrant" holds for callbacks that send, stop,
  discard or ask, but `safe_delete` or `join` in a callback joins the thread by itself and `start` assigns to a joinable thread:
  both end the program (C146). The mutex given to `wait_for` is a local variable, so a notification between the worker's look at
  the container and its sleep is lost, and the predicate ignores `_stopped`: in both cases the worker reacts up to 100 ms late (C175).
  An exception of a callback, or of a copy or comparison of a message on the worker, ends the program; a comparison that throws in
  `receive_message` has inserted the message all the same (C176).
* `thread_t`: starting again without joining terminates the program, and an object destroyed before its thread enters
  `run` makes a pure virtual call (C111); the exit code is a plain `int` read while the thread writes it (C112). If no thread can be created, `start`
  throws after it has set the exit code: the object, and a message queue, seem to run for ever (C162).
* Intervals above 292 years minus the uptime overflow the clock (undefined), the greatest ones and negative ones make every wait end at
  once, so `timer_t t{-1, f}` calls `f` without pause instead of never (C166).
* Timer: `stop` before the thread sets `_is_running`, or between the load and the store of
  `_is_running = _is_running && …`, is lost (C101); `on_stop` is called twice and may overlap `on_interval` (C104);
  `set_interval` races with the timer thread (C113); `notify` during `on_interval` is lost (C114); with a system clock
  that is set forward the timer fires early (C102). Wake-ups without timeout make it late, each by up to a millisecond,
  because the elapsed time is truncated and the clock reset; woken more often than once per millisecond it never fires
  (C127). `stop` and `notify` do not take the mutex, so a notification between the test of `_is_running` and the sleep is
  lost: the thread, and with it `join` and the destructor, wait for the whole interval (C128). `timer_t` has no
  destructor: one that is destroyed while its thread is in the loop, even after `stop`, may call the pure virtual
  `on_interval` or execute a destroyed `std::function`; with `safe_delete` this cannot happen, but if the thread has not
  yet set `_is_running` the destructor never returns (C135). `stop` called by `on_start` is always lost, `stop(true)` and `start` in
  a callback end the program, and a timer destroyed by its own callback waits for ever for the mutex its thread holds (C147). An exception of
  a callback on the thread, or of `on_stop` in a destructor, ends the program; one of `on_stop` in `stop` skips the notification and
  the join, so that the thread of the stopped timer sleeps on for its whole interval (C178).

## 6. Mutation tests

`seeded/LOG.jsonl` records the wrong programs the theorems were tested against: each line is one edit of a model
definition, the claim it is meant to break and the theorems that no longer prove. Theorems that an edit did not break were
tightened (field `tightened`).

How far this evidence goes:

* A theorem listed under `failed` lost its proof. That alone does not show that its statement became false, since a proof
  script can also break on an edit that changes nothing. Only a concrete `example` or a counterexample theorem that fails
  shows a change of behaviour directly.
* Edits found to leave the behaviour unchanged are marked `equivalent` and are no evidence. The entries before `fs_qloop` have
  not been searched for such edits one by one.
* An audit on 2026-11-16 found four logged edits that did not compile (`ca_clip_map`, `to_csv_long`, `cr_q_stoplock`, `fx_shalf`), so that
  their failures were no evidence. They were replaced by edits that compile and do break their claims; the entries in the log are those of
  the second run. The harness now rejects edits that do not compile. Three entries (`til_no_subtract`, `til_restart`,
  `til_max`) named `C127_counterexample`, which had only run into a time limit; they were run again with a higher one.
* The edited model is checked as one concatenated file. A run of the unedited file on 2026-11-16 found two theorems that
  fail there for reasons of the harness (`C57_assignCat_lawful`, and `C111_careful_partial` by a timeout), because the file
  imported more of Mathlib than the modules do when only some of them were built. One entry (`th_join_stays`) rested on one
  of them; it was run again with the right imports and stands. The harness now checks the unedited file first and
  discounts what fails there.
