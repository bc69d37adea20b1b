{
 "claims": [
  {
   "property": "C01",
   "status": "proved",
   "theorems": [
    "Verif.Fenwick.C01_build_query",
    "Verif.Fenwick.C01_build_query_machine"
   ],
   "note": "A sum tree built from a vector answers every query with the sum of the addressed elements. For machine integers: sums are modulo `2^64`."
  },
  {
   "property": "C02",
   "status": "proved",
   "theorems": [
    "Verif.Fenwick.C02_history"
   ],
   "note": "Every history of rebuild/update/set_value/query/resize/copy/move on a family of trees gives, call by call, the results that plain lists give."
  },
  {
   "property": "C03",
   "status": "proved",
   "theorems": [
    "Verif.Fenwick.C03_set_value"
   ],
   "note": "`set_value` on any reachable built sum tree."
  },
  {
   "property": "C04",
   "status": "proved",
   "theorems": [
    "Verif.Fenwick.C04_update"
   ],
   "note": "`update` on any reachable built sum tree."
  },
  {
   "property": "C05",
   "status": "proved",
   "theorems": [
    "Verif.Fenwick.C05_unbuilt_and_move",
    "Verif.Fenwick.C05_history"
   ],
   "note": "Unbuilt trees throw (the store is unchanged by construction of the call: no new tree is returned), and a move transfers all answers and leaves the source unbuilt and empty. Any transform. At the level of histories: a call on an unbuilt object throws `not built` and leaves every object as is."
  },
  {
   "property": "C06",
   "status": "partial",
   "theorems": [
    "Verif.Fenwick.C06_product_query_partial",
    "Verif.Fenwick.C06_exact",
    "Verif.Fenwick.C06_counterexample"
   ],
   "note": "Full claim: `query x y` on a product tree is the product of the addressed elements. Proved when no element *before* the addressed range is zero; missing: prefixes containing a zero, for which the claim is false (`C06_counterexample`, `C06_exact`). C06_counterexample: the claim fails: in `[0, 5]` the product of position 2 alone is reported as 0. Exactly as the code behaves: a zero before the addressed range makes the answer 0. So the answer is the product if and only if no zero comes before the range or one is in it."
  },
  {
   "property": "C07",
   "status": "partial",
   "theorems": [
    "Verif.Fenwick.C07_product_update_partial",
    "Verif.Fenwick.C07_zero",
    "Verif.Fenwick.C07_counterexample"
   ],
   "note": "Full claim: `update p v` on a product tree multiplies element `p` by `v`, for every `v`. Proved for `v \u2260 0` (observed through all prefix queries, which involve no division); missing: `v = 0`, for which the claim is false (`C07_counterexample`, `C07_zero`). C07_counterexample: the claim fails for `v = 0`: the update is reported as done but the product stays. Exactly as the code behaves for `v = 0`: the call reports success and changes nothing, so no query sees it."
  },
  {
   "property": "C08",
   "status": "proved",
   "theorems": [
    "Verif.Fenwick.C08_resize"
   ],
   "note": "Downsizing keeps every answer about the remaining prefix (any transform, any content)."
  },
  {
   "property": "C09",
   "status": "partial",
   "theorems": [
    "Verif.Fenwick.C09_in_bounds_partial",
    "Verif.Fenwick.C09_counterexample",
    "Verif.Fenwick.C09_exact"
   ],
   "note": "Full claim: every query/update/set_value on a built tree stays inside the array. Proved for every tree (whatever its contents) of at least one cell, every argument. Missing: an array downsized to zero cells, where `query` reads out of bounds (`C09_counterexample`). C09_counterexample: the claim fails after `resize(0)`: every query with both bounds given reads outside the array. Exactly: on a built tree a query leaves the array if and only if the array has no cell, and then whatever the bounds are; `update` and `set_value` never leave it, even then."
  },
  {
   "property": "C10",
   "status": "proved",
   "theorems": [
    "Verif.UnionFind.C10_same"
   ],
   "note": "In every reachable object, `same(a, b)` terminates without error and answers connectivity under the joins performed so far."
  },
  {
   "property": "C11",
   "status": "proved",
   "theorems": [
    "Verif.UnionFind.C11_join"
   ],
   "note": "`join(a, b)` returns true iff both sets exist and were not connected; afterwards `same` says that exactly the classes of `a` and `b` have been merged."
  },
  {
   "property": "C12",
   "status": "proved",
   "theorems": [
    "Verif.UnionFind.C12_disjoint"
   ],
   "note": "`disjoint()` is the number of classes."
  },
  {
   "property": "C13",
   "status": "proved",
   "theorems": [
    "Verif.UnionFind.C13_size_of"
   ],
   "note": "`size_of(x)` is the size of the class of `x`, 0 for a missing set."
  },
  {
   "property": "C14",
   "status": "proved",
   "theorems": [
    "Verif.UnionFind.C14_find"
   ],
   "note": "`find(x)` returns a member of the class of `x`; between joins two `find`s (with any reads in between) agree iff their arguments are connected; missing sets give `not_found`, which is no set; reads change neither the classes nor `disjoint()`."
  },
  {
   "property": "C15",
   "status": "proved",
   "theorems": [
    "Verif.UnionFind.C15_depth"
   ],
   "note": "`find(x)` makes at most `log2 k` recursive calls, `k` the size of the class of `x`: with that depth available it completes with the same result."
  },
  {
   "property": "C16",
   "status": "partial",
   "theorems": [
    "Verif.UnionFind.C16_never",
    "Verif.UnionFind.C16_insert_partial",
    "Verif.UnionFind.C16_counterexample"
   ],
   "note": "What `insert` does. The return value is as documented, and elements other than `x` keep their parent and rank cells, but a new `x` is not inserted (nothing changes) and an existing `x` is reset to a root of rank 1 with both counters increased. The documented contract (after the call `x` is present as a singleton, the rest undisturbed) fails in both cases: `C16_counterexample`. C16_counterexample: the claim fails: `insert` of a new id does not make it exist; `insert` of an existing, joined id (here the representative 1 of {0,1}) leaves it joined while `disjoint()` counts one class more; `insert` of the other member cuts it off while `size_of` still counts it. **C16 (exact)**: `insert(x)` breaks its description in every state and for every `x`: a new `x` is still missing afterwards; for an existing `x` the result is never that of making `x` a set of its own (some other set still hangs below it, or `size_of` still counts it, or `disjoint()` counts it twice), and never that of leaving the object as it was (`disjoint()` changes)."
  },
  {
   "property": "C17",
   "status": "partial",
   "theorems": [
    "Verif.UnionFind.C17_exact",
    "Verif.UnionFind.C17_iff",
    "Verif.UnionFind.C17_acorn_partial",
    "Verif.UnionFind.C17_counterexample"
   ],
   "note": "`acorn()` is the number of sets ever created; it is the number of sets without a parent as long as no two different sets were joined. After a successful join it is too large: `C17_counterexample`. C17_counterexample: the claim fails after one join: three sets, one of them with a parent, `acorn() = 3`. **C17 (exact)**: the number of sets without a parent is `disjoint()`, and `acorn()` equals it exactly as long as no two different sets were joined. **C17 (exact)**, over all histories."
  },
  {
   "property": "C18",
   "status": "proved",
   "theorems": [
    "Verif.UnionFind.C18_elements"
   ],
   "note": "Element-keyed calls on `union_find_t`. In every reachable object (elements `K`, joined pairs `E`): `insert` returns true iff the element is new, `same_set` is connectivity, `join_sets` returns true iff it merged two classes, `find_by_elem` is canonical (`not_found` for absent elements), `size_of` is the class size and `disjoint()` the number of classes."
  },
  {
   "property": "C19",
   "status": "partial",
   "theorems": [
    "Verif.UnionFind.C19_exact",
    "Verif.UnionFind.C19_ids_partial",
    "Verif.UnionFind.C19_counterexample"
   ],
   "note": "The calls by set id behave as specified when the existence test (which looks the *id* up as a key) happens to agree with the existence of the set, e.g. when the elements are their own ids. Otherwise they reject valid ids or access out of bounds: `C19_counterexample`. C19_counterexample: the claim fails: with elements 10, 20, 30 (`T` = an integer type) the existing set 0 is \"not found\" and has size 0, and the id 10 of no set is accepted and read out of bounds. **C19 (exact)**: `find(id)` and `size_of(id)` are right for an id (found iff the set exists, no access out of bounds) exactly when the look-up of the id among the *keys* gives the same answer as the existence of the set; so `C19_ids_partial` cannot be extended to a single further id."
  },
  {
   "property": "C20",
   "status": "proved",
   "theorems": [
    "Verif.Cache.C20_capacity"
   ],
   "note": "The size never exceeds the capacity."
  },
  {
   "property": "C21",
   "status": "proved",
   "theorems": [
    "Verif.Cache.C21_refines"
   ],
   "note": "Every history of calls behaves like the abstract recency list: same outputs, same observations, and it is undefined exactly where the abstract cache is (an `operator[]` of an absent key at capacity 0, see C25)."
  },
  {
   "property": "C22",
   "status": "proved",
   "theorems": [
    "Verif.Cache.C22_find"
   ],
   "note": "`find(k)` reports whether `k` is cached; if so `k` becomes the most recent key and the others keep their order; if not, nothing changes."
  },
  {
   "property": "C23",
   "status": "proved",
   "theorems": [
    "Verif.Cache.C23_eviction"
   ],
   "note": "On overflow exactly the least recent keys go, `on_discard` is called once for each, least recent first, and `clipped()` counts them; `remove`, `clear` and `find` discard nothing."
  },
  {
   "property": "C24",
   "status": "proved",
   "theorems": [
    "Verif.Cache.C24_history"
   ],
   "note": "With capacity `cap \u2265 1` and a history `ks` of `operator[]` accesses (any repetitions), every access returns its key, and the cache holds exactly the `cap` most recently accessed distinct keys, most recent first."
  },
  {
   "property": "C25",
   "status": "partial",
   "theorems": [
    "Verif.Cache.C25_access_partial",
    "Verif.Cache.C25_counterexample"
   ],
   "note": "`cache[k]` returns `k`, now the most recent element, whenever the capacity is at least 1. At capacity 0 it dereferences a singular iterator: `C25_counterexample`. C25_counterexample: the claim fails for every reachable cache of capacity 0 and every key."
  },
  {
   "property": "C26",
   "status": "partial",
   "theorems": [
    "Verif.Cache.C26_exact",
    "Verif.Cache.C26_copy_partial",
    "Verif.Cache.C26_counterexample"
   ],
   "note": "A copy shows the same contents, and histories of calls that do not follow stored iterators (`add`, `clip`, `set_capacity`, `clear`) behave as specified on it. The copy of an empty cache is fully usable. Missing: `find`, `remove` and `operator[]` of any copied key are undefined: `C26_counterexample`. C26_counterexample: the claim fails for every non-empty reachable cache: on its copy, `find`, `operator[]` and `remove` of any copied key use iterators into the original's list. **C26, exactly**: a history of calls on a copy is defined, and then answers as specified, as long as it does not call `find`, `operator[]` or `remove` with a key that has been in the copy since it was made; the first such call is undefined. Copied keys become usable again when they are discarded, or cleared, and added again."
  },
  {
   "property": "C27",
   "status": "proved",
   "theorems": [
    "Verif.Cache.C27_move"
   ],
   "note": "After a move the destination behaves like the source did under every later history, and the source is empty, keeps its capacity and is fully usable."
  },
  {
   "property": "C28",
   "status": "partial",
   "theorems": [
    "Verif.Cache.C28_remove_partial",
    "Verif.Cache.C28_counterexample"
   ],
   "note": "`remove(k)` of a value removes `k` if present and keeps the others in order; `find`, `operator[]` and `add` also accept references into the cache. Missing: `remove` with such a reference reads freed memory, always (`C28_counterexample`). C28_counterexample: the claim fails for every element of every reachable cache: `remove` of a reference to it (e.g. `most_recent()`) reads the freed node."
  },
  {
   "property": "C29",
   "status": "proved",
   "theorems": [
    "Verif.Cache.C29_last"
   ],
   "note": "`last_operation()` after `add` and `remove`; `add` of a present key changes neither contents nor order."
  },
  {
   "property": "C30",
   "status": "proved",
   "theorems": [
    "Verif.Avl.C30_sorted"
   ],
   "note": "Every history runs without UB, and the in-order values are sorted; strictly if duplicates were never enabled."
  },
  {
   "property": "C31",
   "status": "proved",
   "theorems": [
    "Verif.Avl.C31_set"
   ],
   "note": "With duplicates disabled throughout, `contains x` is true iff the last call concerning `x` inserted it; the next `insert x` returns true iff `x` is absent and the next `remove x` iff it is present."
  },
  {
   "property": "C32",
   "status": "proved",
   "theorems": [
    "Verif.Avl.C32_multiset"
   ],
   "note": "Every history (duplicates switched on and off at will) returns exactly what a multiset returns, and afterwards `contains` and the in-order multiplicities agree with it."
  },
  {
   "property": "C33",
   "status": "proved",
   "theorems": [
    "Verif.Avl.C33_size"
   ],
   "note": "`size()` is the number of nodes (modulo 2^64)."
  },
  {
   "property": "C34",
   "status": "proved",
   "theorems": [
    "Verif.Avl.C34_insert_balanced"
   ],
   "note": "With duplicates disabled and no removals (insertions and `clear`), every node is balanced and `height() \u2264 2\u00b7log2(n + 1) + 1` for `n` elements."
  },
  {
   "property": "C35",
   "status": "partial",
   "theorems": [
    "Verif.Avl.C35_exact",
    "Verif.Avl.C35_counterexample",
    "Verif.Avl.C35_remove_balanced_partial"
   ],
   "note": "From any balanced state, reached by any history, one more `insert` (duplicates off) keeps balance, and one more `remove` either keeps balance and lowers the height by at most one, or leaves the height unchanged at \u2265 4 with imbalances of at most two. So trees of height at most 3 stay balanced. Missing: balance after removals from higher trees, which fails (`C35_counterexample`). C35_counterexample: the claim is false: with the left child's two subtrees equally deep the code uses the double rotation. **C35, exactly:** a removal from a balanced tree, reached by any history, destroys the balance if and only if on the way back up some subtree becomes two levels less deep than its sibling, the two subtrees of the sibling are equally deep, and the far subtree of the inner one is two levels less deep than these. The height after the removal is as given."
  },
  {
   "property": "C36",
   "status": "partial",
   "theorems": [
    "Verif.Avl.C36_exact",
    "Verif.Avl.C36_counterexample",
    "Verif.Avl.C36_duplicates_balanced_partial"
   ],
   "note": "With duplicates enabled, from any balanced state reached by any history, inserting a value that is not in the tree keeps balance. Missing: inserting a value already present, which can fail (`C36_counterexample`). C36_counterexample: the claim is false: six equal values. **C36, exactly:** with duplicates enabled, an insertion into a balanced tree, reached by any history, destroys the balance if and only if on the way back up some right child has the inserted value, has a left subtree, and grew though it was the deeper child already."
  },
  {
   "property": "C37",
   "status": "proved",
   "theorems": [
    "Verif.Avl.C37_height"
   ],
   "note": "`height()` is the number of nodes on the longest path, and so is every stored height, after every history (including unbalanced trees)."
  },
  {
   "property": "C38",
   "status": "proved",
   "theorems": [
    "Verif.Avl.C38_extrema"
   ],
   "note": "On a non-empty tree `left_most()`/`right_most()` are the least and the greatest contained value; on an empty tree they dereference null."
  },
  {
   "property": "C39",
   "status": "partial",
   "theorems": [
    "Verif.Avl.C39_exact",
    "Verif.Avl.C39_counterexample",
    "Verif.Avl.C39_counterexample_balance",
    "Verif.Avl.C39_counterexample_empty",
    "Verif.Avl.C39_copy_partial"
   ],
   "note": "A copy made from any reachable tree has the same values, shape, `size()` and duplicates flag, correct parent links, and every later history on it behaves like the multiset from the source's contents; copy assignment from a non-empty tree likewise. Missing: `height()` and balance (all copied heights are 1), and assignment from an empty tree. C39_counterexample: the claim is false: the copy of {1, 2} says height 1. C39_counterexample_balance: One insertion into a copy of a perfect tree loses balance. Exactly as the code behaves, for every tree `a` that calls on a new tree lead to and any target `dst`. The copy and the assigned tree really have the depth of the source, but a non-empty one reports the height 1, which is right if and only if no node has a child. An assignment takes over the elements of the source if and only if the source has some or the target had none; otherwise the target keeps its elements and reports 0 of them."
  },
  {
   "property": "C40",
   "status": "partial",
   "theorems": [
    "Verif.Avl.C40_counterexample",
    "Verif.Avl.C40_move_partial"
   ],
   "note": "The destination becomes exactly the source (so later histories on it continue the source's), and the source contains nothing. Missing: the source's `size()`, which keeps its old value. C40_counterexample: the claim is false: the source keeps its `size()`."
  },
  {
   "property": "C41",
   "status": "partial",
   "theorems": [
    "Verif.Avl.C41_counterexample",
    "Verif.Avl.C41_parent_partial"
   ],
   "note": "After every history the root has no parent, and in every copy of a reachable tree all parents are right. Missing: inner subtrees moved by a rotation, whose parent link is stale (`C41_counterexample`). C41_counterexample: the claim is false: after inserting 1..6 node 3 hangs under 2 but still names 4."
  },
  {
   "property": "C42",
   "status": "proved",
   "theorems": [
    "Verif.Nary.C42_in_order",
    "Verif.Nary.C42_in_order_sorted"
   ],
   "note": "With a callback that never stops, `in_order` calls it once per node in left-node-right order and returns the number of nodes; on every reachable AVL tree the values come out sorted."
  },
  {
   "property": "C43",
   "status": "proved",
   "theorems": [
    "Verif.Nary.C43_pre_pos_order",
    "Verif.Nary.C43_nary"
   ],
   "note": "`pre_order` with a callback that never stops and `pos_order` with any callback (its result is ignored) visit every node once in their order and return the number of nodes. For n-ary nodes."
  },
  {
   "property": "C44",
   "status": "proved",
   "theorems": [
    "Verif.Nary.C44_dfs",
    "Verif.Nary.C44_dfs_binary"
   ],
   "note": "`depth_first_search` calls the predicate on the nodes in pre-order up to and including the first for which it returns true, and returns the number of calls. For binary trees (`children()` = left, right): without a stop the order is the binary pre-order."
  },
  {
   "property": "C45",
   "status": "proved",
   "theorems": [
    "Verif.Nary.C45_bfs",
    "Verif.Nary.C45_all_visited"
   ],
   "note": "`breadth_first_search` calls the predicate level by level, left to right, up to and including the first node for which it returns true, and returns the number of calls. Every node is visited exactly once by either search when the predicate never holds."
  },
  {
   "property": "C46",
   "status": "partial",
   "theorems": [
    "Verif.Nary.C46_counterexample",
    "Verif.Nary.C46_counterexample_pre",
    "Verif.Nary.C46_stop_partial",
    "Verif.Nary.C46_exact"
   ],
   "note": "What a true result does: in `in_order` it hides the node's right subtree, in `pre_order` its children; the returned number is always the number of calls. At the root this is the documented stop: in `in_order` no call follows the one on the root, in `pre_order` it is the only one. Missing: stopping the whole search from an inner node, which the code does not do (`C46_counterexample`). C46_counterexample: the claim is false: `in_order` goes on after the stop at 1. C46_counterexample_pre: The same for `pre_order`. Exactly: with a callback that depends on the node only, `in_order` ends with the first true result iff that result came from a node of the right spine (or from none), and `pre_order` iff every node behind that node is below it."
  },
  {
   "property": "C47",
   "status": "proved",
   "theorems": [
    "Verif.Nary.C47_slots"
   ],
   "note": "From a fresh node, every sequence of calls (with `replace_at` inside the limit) runs without UB and leaves at most `max` slots; all children are distinct nodes whose parent is this node; and the next call's result says exactly what it did (`Effect`)."
  },
  {
   "property": "C48",
   "status": "partial",
   "theorems": [
    "Verif.Nary.C48_counterexample_all",
    "Verif.Nary.C48_counterexample",
    "Verif.Nary.C48_replace_at_partial"
   ],
   "note": "Inside the limit `replace_at` never leaves the vector; it puts the new child at the position, returns the old child, if any, detached from its parent, and touches no other slot. Missing: positions outside the limit (UB, `C48_counterexample_all`). C48_counterexample_all: the claim is false on every reachable node and every such position: the write is out of bounds."
  },
  {
   "property": "C49",
   "status": "proved",
   "theorems": [
    "Verif.Nary.C49_frame",
    "Verif.Nary.C49_first_last"
   ],
   "note": "The slot operations change only the addressed slot (`delete_child` shifts later slots), and the observers read the slots as documented (for vectors smaller than 2^64). `first`/`last` return the first/last child, and throw exactly when there is none."
  },
  {
   "property": "C50",
   "status": "proved",
   "theorems": [
    "Verif.Nary.C50_in_order",
    "Verif.Nary.C50_between_length",
    "Verif.Nary.C50_all_visited"
   ],
   "note": "With a callback that never stops, `in_order` visits a node without slots once, a node with one slot once after it, and a node with k \u2265 2 slots between consecutive slots (k \u2212 1 times), and returns the number of nodes. How often the owner is visited by `between`, besides the visits inside the slots. Every node is visited."
  },
  {
   "property": "C51",
   "status": "partial",
   "theorems": [
    "Verif.Nary.C51_counterexample",
    "Verif.Nary.C51_stop_partial",
    "Verif.Nary.C51_exact"
   ],
   "note": "The calls end with the first one that returns true on a node that has slots. Missing: true results on nodes without slots, which are ignored (`C51_counterexample`). C51_counterexample: the claim is false: the result on a node without slots is ignored. Exactly: the calls of `in_order` of an n-ary tree end with the first true result iff the node that gave it has slots, or no call follows anyway."
  },
  {
   "property": "C52",
   "status": "partial",
   "theorems": [
    "Verif.Nary.C52_counterexample_all",
    "Verif.Nary.C52_counterexample",
    "Verif.Nary.C52_copy_partial"
   ],
   "note": "A root without children (or no root) is copied independently. Missing: trees with children. C52_counterexample_all: the claim is false for every tree with at least one child: the child nodes are shared and deleted twice."
  },
  {
   "property": "C53",
   "status": "partial",
   "theorems": [
    "Verif.Nary.C53_counterexample",
    "Verif.Nary.C53_counterexample_self",
    "Verif.Nary.C53_counterexample_leak",
    "Verif.Nary.C53_assign_partial"
   ],
   "note": "Assignment from another, non-empty tree gives the values and shape of the source, a root without parent and right parent links. Missing: empty source, self assignment, and releasing the old nodes. C53_counterexample: the claim is false: assigning an empty tree keeps the old nodes. C53_counterexample_self: Self assignment replaces the whole tree by one default node."
  },
  {
   "property": "C54",
   "status": "partial",
   "theorems": [
    "Verif.Nary.C54_counterexample",
    "Verif.Nary.C54_counterexample_below",
    "Verif.Nary.C54_node_assign_partial"
   ],
   "note": "With a source outside the target's subtree, copy assignment deep-copies value and shape with right parent links below the target, which keeps its own parent; move assignment transfers value and children, sets the children's parent to the target and leaves the source without children and without parent. Missing: self assignment and sources below the target (`C54_counterexample`, `C54_counterexample_below`). C54_counterexample: the claim is false: self assignment drops the children (and a source below the target is read after it was freed)."
  },
  {
   "property": "C55",
   "status": "proved",
   "theorems": [
    "Verif.Seg.C55_query"
   ],
   "note": "After building any tree object (also one used before) from a non-empty vector, `query(a,b)` returns the left-to-right join of the built elements in the clamped range."
  },
  {
   "property": "C56",
   "status": "proved",
   "theorems": [
    "Verif.Seg.C56_in_bounds",
    "Verif.Seg.C56_exact",
    "Verif.Seg.C56_float",
    "Verif.Seg.C56_float_in_bounds"
   ],
   "note": "For every transform whose `apply`/`propagate` keep the bounds and index of the nodes, every history that starts by building from a non-empty vector runs to completion without leaving the heap (no UB, no exception), and building a new tree allocates exactly the computed number of cells, which later queries do not change. The allocation in exact arithmetic, `4 n` cells, is roomy: the tree of `n` elements uses the heap indices below `top n 1`. The allocation `ceil(pow(2.0, log2(size) + 2))` leaves enough room whenever the computed power `p n` is accurate to one part in `2^33`. IEEE doubles carry 53 bits, and the rounding of `log2(size) + 2 \u2264 66` costs at most 7 of them. Histories with the floating-point allocation."
  },
  {
   "property": "C57",
   "status": "proved",
   "theorems": [
    "Verif.Seg.C57_lazy",
    "Verif.Seg.C57_addSum_lawful",
    "Verif.Seg.C57_assignCat_lawful"
   ],
   "note": "For every lawful transform, after building and any sequence of queries and updates (and rebuilds from non-empty vectors), every call returns the join of the clamped range of the elements with all updates applied pointwise in order. Adding to a range with sum queries is lawful. Assigning to a range with a non-commutative join, never composing marks (`criteria` false), is lawful."
  },
  {
   "property": "C58",
   "status": "proved",
   "theorems": [
    "Verif.Seg.C58_update_value"
   ],
   "note": "`query_update(a,b,u)` returns what a `query(a,b)` right after it returns, in every state reached by a history; the order of the bounds does not matter."
  },
  {
   "property": "C59",
   "status": "proved",
   "theorems": [
    "Verif.Seg.C59_no_updates"
   ],
   "note": "When no update \"is\" an update (`empty_update_t`), every history of queries and updates after a build answers from the built elements alone; only associativity of `join` is needed."
  },
  {
   "property": "C60",
   "status": "partial",
   "theorems": [
    "Verif.Seg.C60_exact",
    "Verif.Seg.C60_counterexample",
    "Verif.Seg.C60_counterexample_ub",
    "Verif.Seg.C60_rebuild_partial"
   ],
   "note": "A tree that was never built throws; after rebuilding ANY tree object (whatever it went through) from a non-empty vector, all later answers are those of the new elements only. Missing: rebuilding from an empty vector a tree that was built before (`C60_counterexample`). C60_counterexample: the claim is false: after `rebuild({})` the old sum is still reported, and out-of-range bounds are no longer clamped. C60_counterexample_ub: Reading past the old elements after `rebuild({})` is undefined. Exactly: let a tree be built from a non-empty vector, used in any way, and then rebuilt from an empty one. As long as all later bounds are below the old size, queries and updates answer as if the second `rebuild` had not happened; the first one with a bound that is not is undefined (instead of clamped)."
  },
  {
   "property": "C61",
   "status": "proved",
   "theorems": [
    "Verif.Heap.C61_index",
    "Verif.Heap.C61_positions",
    "Verif.Heap.C61_no_wrap"
   ],
   "note": "Parents of children, injectivity, and every position but 0 is a child of exactly its parent. The positions themselves. The `size_t` arithmetic computes these values as long as the child position is representable."
  },
  {
   "property": "C62",
   "status": "proved",
   "theorems": [
    "Verif.Heap.C62_swap",
    "Verif.Heap.C62_involution"
   ],
   "note": "`swap` exchanges a position with its parent (throwing outside the heap, doing nothing at 0), `swap_with_*_child` with that child if it exists; nothing else changes. Swapping twice restores the heap."
  },
  {
   "property": "C63",
   "status": "partial",
   "theorems": [
    "Verif.Heap.C63_counterexample_all",
    "Verif.Heap.C63_counterexample",
    "Verif.Heap.C63_set_partial"
   ],
   "note": "For every other position the child is stored, all old elements stay, and new cells are defaults. Missing: the child position equal to the size. C63_counterexample_all: the claim is false exactly when the child position equals the size: the call throws `std::out_of_range`."
  },
  {
   "property": "C64",
   "status": "partial",
   "theorems": [
    "Verif.Command.C64_exact",
    "Verif.Command.C64_counterexample",
    "Verif.Command.C64_counterexample_undo",
    "Verif.Command.C64_counterexample_return",
    "Verif.Command.C64_nothing_partial"
   ],
   "note": "With nothing stored `undo` and `redo` return `nullptr` and change nothing; `redo` always returns `nullptr` (nothing ever reaches the redo list) and `dispose` deletes nothing. Missing: undo and redo of a stored command, which the code does not do. C64_counterexample: the claim is false: `store` flows off its end. C64_counterexample_undo: Even with a return statement in `store`, `undo` with something stored pops an empty deque, in every reachable state. Exactly as the code behaves. If `store` returned (`run false`), a history on a new manager would be undefined if and only if some `undo` comes after a `store`; otherwise every `store` returns its command and every `undo` and `redo` returns `nullptr`, so no command ever comes back. As written (`run true`) a history is undefined if and only if it stores a command at all."
  },
  {
   "property": "C65",
   "status": "partial",
   "theorems": [
    "Verif.Command.C65_counterexample",
    "Verif.Command.C65_history_partial",
    "Verif.Command.C65_stores_partial"
   ],
   "note": "If `store` returned, then in every history (with any `undo`/`redo`/`dispose` that is defined) the manager keeps exactly the last 1024 stored commands, has deleted the older ones oldest first, and after destruction exactly the stored commands were deleted: each once if they were distinct. Missing: the missing return statement (`C65_counterexample`). Storing always completes in the version with a return statement. C65_counterexample: the claim is false as written because `store` has no return statement."
  },
  {
   "property": "C66",
   "status": "proved",
   "theorems": [
    "Verif.Seqs.C66_sound"
   ],
   "note": "Whatever `find_missing_arithmetic_in_sorted` reports for a progression with one element removed is the removed element."
  },
  {
   "property": "C67",
   "status": "partial",
   "theorems": [
    "Verif.Seqs.C67_counterexample_late",
    "Verif.Seqs.C67_counterexample_complete",
    "Verif.Seqs.C67_counterexample",
    "Verif.Seqs.C67_find_partial",
    "Verif.Seqs.C67_exact"
   ],
   "note": "The part that holds. For a progression with an inner element missing: the function never answers \"complete\"; it finds the element when there are at most four elements, and when the missing position is the first or second one probed by a search that starts to the right; a missing first element is always found; a single element is reported complete. Missing: the other positions (`C67_counterexample_late`, `C67_counterexample`); `C67_exact` says which of them are found. C67_counterexample_late: the claim fails: an inner element missing from the last quarter is *never* found; the search dereferences an iterator at or past `last`. C67_counterexample_complete: the claim fails: a complete progression of three or more elements always makes the search run past `last`. Exactly: when `n` elements are left of a progression whose inner position `k` is missing, the element is found if and only if the search looks at position `k` within `n` rounds, without leaving the sequence before; the search reads beyond the end if and only if it leaves the sequence before; and otherwise, if it goes back and forth without meeting `k`, it throws."
  },
  {
   "property": "C68",
   "status": "proved",
   "theorems": [
    "Verif.Seqs.C68_sound"
   ],
   "note": "Whatever the integer `find_missing_geometric_in_sorted` reports for a progression of nonzero integers with one element removed is the removed element."
  },
  {
   "property": "C69",
   "status": "partial",
   "theorems": [
    "Verif.Seqs.C69_counterexample_two",
    "Verif.Seqs.C69_counterexample_late",
    "Verif.Seqs.C69_counterexample",
    "Verif.Seqs.C69_find_partial",
    "Verif.Seqs.C69_exact"
   ],
   "note": "The part that holds: the missing inner element is found whenever three to eight elements are left, and, for any length of at least three, when it is at or right after the middle (or is the first element). Missing: the other positions of longer sequences, see `C69_counterexample_late`; `C69_exact` says which of them are found. C69_counterexample_two: the claim fails for every progression of three elements with the middle one missing: two elements are left and `*next(mid)` dereferences `last`. C69_counterexample_late: the claim fails: an element missing from the last quarter is never found. Exactly: when `n` elements are left of a progression whose inner position `k` is missing, the element is found if and only if the search looks at position `k` or `k - 1` within `n` rounds, before it looks at the last position or one beyond; if it comes to the end exactly it answers that nothing is missing, if it comes to another such position it reads beyond the end, and if it does none of this in `n` rounds it throws."
  },
  {
   "property": "C70",
   "status": "proved",
   "theorems": [
    "Verif.Seqs.C70_missing",
    "Verif.Seqs.C70_empty",
    "Verif.Seqs.C70_signed"
   ],
   "note": "If the range is, in any order, `lower, \u2026, lower+n` with the `k`-th of them missing (and these values, and one more, fit the type), `find_missing_sequential_range` returns the missing value; an empty range gives `{false, 0}`. For the default `int`: the returned bits, read as a signed number, are the missing number."
  },
  {
   "property": "C71",
   "status": "proved",
   "theorems": [
    "Verif.Seqs.C71_first",
    "Verif.Seqs.C71_second",
    "Verif.Seqs.C71_empty"
   ],
   "note": "The element that one of the two ranges has more than the other. An empty first range is dereferenced: the precondition of `C71_second` is needed."
  },
  {
   "property": "C72",
   "status": "proved",
   "theorems": [
    "Verif.Seqs.C72_non_repeated",
    "Verif.Seqs.C72_empty"
   ],
   "note": "The one value that occurs an odd number of times. An empty range is dereferenced."
  },
  {
   "property": "C73",
   "status": "proved",
   "theorems": [
    "Verif.Seqs.C73_sound"
   ],
   "note": "A positive answer is the length of a subarray with the required sum, and the answer is 0 exactly when no non-empty subarray has it."
  },
  {
   "property": "C74",
   "status": "partial",
   "theorems": [
    "Verif.Seqs.C74_counterexample",
    "Verif.Seqs.C74_longest_partial",
    "Verif.Seqs.C74_exact",
    "Verif.Seqs.C74_separate_partial"
   ],
   "note": "The part that holds: for a required sum of 0 the answer is the greatest length, and for any required sum it is positive as soon as some subarray matches and never too large. Missing: the greatest length for required sums other than 0, see `C74_counterexample`. A further part that holds: if no matching subarray directly follows another matching subarray, the answer is the greatest length. Missing: sequences with two adjacent matching subarrays, see `C74_exact` for what is computed then. C74_counterexample: the claim fails: in `3 1 1 1` the subarray `1 1 1` has sum 3 and length 3, the function answers 1. The prefix sum that equals the required sum is not entered in `first_occurrence`. Exactly as the code behaves: the answer is the greatest length of a matching subarray that begins at a start (0 if there is none); matching subarrays that directly follow a matching subarray which begins at a start are overlooked."
  },
  {
   "property": "C75",
   "status": "partial",
   "theorems": [
    "Verif.Seqs.C75_exact",
    "Verif.Seqs.C75_counterexample",
    "Verif.Seqs.C75_doubled_partial",
    "Verif.Seqs.C75_max_partial"
   ],
   "note": "Exactly as the code behaves: the answer is the greatest subarray sum of the sequence whose first element, if positive, is doubled. The part that holds: the empty sequence, sequences whose first element is not positive, and, always, an upper bound of every subarray sum. Missing: sequences whose first element is positive, for which `C75_doubled_partial` says what is computed. C75_counterexample: the claim fails for every sequence that starts with a positive number alone: `max_sum_of` of `[x]` is `2x`, because the loop starts again at `first` after `current_max` has been initialised with `*first`. Exactly: the answer is right iff the first element is not positive, or some subarray behind the first element reaches at least the sum of every beginning of the sequence with the first element counted twice."
  },
  {
   "property": "C76",
   "status": "proved",
   "theorems": [
    "Verif.Seqs.C76_count",
    "Verif.Seqs.C76_exact"
   ],
   "note": "`sum_of_subsets` is well defined and returns the number of subsets modulo `2^64`, whichever operand of the sum is evaluated first. Without the modulus: sequences shorter than 64 elements have fewer than `2^64` subsets."
  },
  {
   "property": "C77",
   "status": "proved",
   "theorems": [
    "Verif.Seqs.C77_shared",
    "Verif.Seqs.C77_short"
   ],
   "note": "Calls that share one memo, for the same sequence but with arbitrary sums and start positions, all return what a call with a fresh memo returns. The precondition is needed: a memo with fewer rows than the sequence is indexed out of bounds."
  },
  {
   "property": "C78",
   "status": "proved",
   "theorems": [
    "Verif.Tools.C78_gcd",
    "Verif.Tools.C78_greatest",
    "Verif.Tools.C78_no_overflow"
   ],
   "note": "`gcd` returns the greatest common divisor (and terminates: it is a total function). Without reference to the library's gcd. No intermediate value leaves the 64-bit range."
  },
  {
   "property": "C79",
   "status": "proved",
   "theorems": [
    "Verif.Tools.C79_ieee",
    "Verif.Tools.C79_divisors"
   ],
   "note": "For the code as written, with `square` computed by the conversion to double, `std::sqrt` and the conversion back: for every 64-bit `n` the result lists exactly the divisors other than 1 and `n`, each once, in increasing order when asked. `divisors_of n` lists every divisor `d` of `n` with `1 < d < n`, exactly once, and nothing else; with sorting it is strictly increasing."
  },
  {
   "property": "C80",
   "status": "proved",
   "theorems": [
    "Verif.Tools.C80_sum",
    "Verif.Tools.C80_product",
    "Verif.Tools.C80_minimum",
    "Verif.Tools.C80_maximum"
   ],
   "note": "The variadic sum and product, in any (semi)ring, are the sum and product of the arguments. The variadic minimum / maximum is one of the arguments and bounds all of them."
  },
  {
   "property": "C81",
   "status": "proved",
   "theorems": [
    "Verif.Tools.C81_inverse",
    "Verif.Tools.C81_unknown",
    "Verif.Tools.C81_first"
   ],
   "note": "With distinct names `from_string` inverts `to_string` on `[minimum, maximum)`. A string that is no name in the range yields `maximum`. With repeated names: the first value with that name."
  },
  {
   "property": "C82",
   "status": "proved",
   "theorems": [
    "Verif.Tools.C82_tokens"
   ],
   "note": "Reading words from a stream imbued with `custom_delimiter_t<Filter>` yields exactly the maximal runs of characters accepted by the filter."
  },
  {
   "property": "C83",
   "status": "proved",
   "theorems": [
    "Verif.Tools.C83_round_trip",
    "Verif.Tools.C83_trailing_empty"
   ],
   "note": "A file of `start_offset` arbitrary lines followed by rows whose fields are joined by the separator is read back exactly: the field texts returned are the fields of the rows, every field has the type of its column, and the number of a numeric column is the one its text stands for. Preconditions: fields contain neither separator nor newline, the last field of a row is not empty, no row is wider than the descriptor, and fields of numeric columns are numbers. The precondition on the last field is needed: a trailing empty field is lost."
  },
  {
   "property": "C84",
   "status": "partial",
   "theorems": [
    "Verif.Tools.C84_exact",
    "Verif.Tools.C84_counterexample",
    "Verif.Tools.C84_counterexample_all",
    "Verif.Tools.C84_counterexample_double",
    "Verif.Tools.C84_getters_partial"
   ],
   "note": "The part that holds: integer columns (both getters), and `get_double` of double columns and of fields made by the one-argument constructor on platforms that define the conversion of `nan`. Missing: text columns, and `get_int` of double columns, see the counterexamples. C84_counterexample: the claim fails for text columns: both getters read uninitialised members. C84_counterexample_double: the claim fails for double columns: `static_cast<int>(nan)` is undefined; on a platform that gives it the value `v` (`INT_MIN` on x86), `get_int` returns `v` whatever the text says, because `std::isnan` of an `int` is never true. Exactly as the code behaves, for a text that says the numbers `i` and `d`. `get_int` gives `i` if and only if the column is one of integers, or one of doubles on a platform on which `static_cast<int>(nan)` happens to be `i`. `get_double` gives `d` if and only if the column is one of integers, or one of doubles on a platform that defines that conversion. A field made without a column type gives `d` if the conversion is defined, and `i` if and only if it is the value of the conversion."
  },
  {
   "property": "C85",
   "status": "proved",
   "theorems": [
    "Verif.Tools.C85_prefix",
    "Verif.Tools.C85_text",
    "Verif.Tools.C85_long",
    "Verif.Tools.C85_throws"
   ],
   "note": "For any file contents, as long as the fields convert, the rows returned are those of the lines after the offset, up to (excluding) the first line with more fields than the descriptor; shorter rows are kept as they are. For descriptors of text columns only: no condition on the fields. Nothing after the first line that is too long is looked at: its contents are arbitrary. A field that is not a number in a numeric column makes the call throw (the rows read so far are lost)."
  },
  {
   "property": "C86",
   "status": "proved",
   "theorems": [
    "Verif.Tools.C86_in_range",
    "Verif.Tools.C86_onto",
    "Verif.Tools.C86_narrow"
   ],
   "note": "When `end` fits both the generator's `result_type` and `int_type`, every value produced by `next_random` is in `[start, end]`. On the modelled platform (`uint_fast32_t` and `unsigned long` of 64 bits) this is every `end`. Every value of the range is produced by some generator output. The preconditions are needed: where `result_type` has 32 bits, `next_random(2^32, 2^32 + 5)` yields values below 6; a negative `start` converted to `unsigned long` exceeds `end` and the distribution is undefined."
  },
  {
   "property": "C87",
   "status": "proved",
   "theorems": [
    "Verif.Tools.C87_string"
   ],
   "note": "`next_random_string(n, set)` has `n` characters, all from `set`, or printable ASCII when `set` is empty."
  },
  {
   "property": "C88",
   "status": "proved",
   "theorems": [
    "Verif.Sem.C88_limit",
    "Verif.Sem.C88_holders"
   ],
   "note": "While no change of the number of resources has taken effect, `_count` never exceeds it. While no change of the number of resources has taken effect, and if no thread called `unlock` more often than it acquired, at most `n` threads hold a resource: acquired one by a returned `lock` or a successful `try_lock` and have not called `unlock` since."
  },
  {
   "property": "C89",
   "status": "proved",
   "theorems": [
    "Verif.Sem.C89_count",
    "Verif.Sem.C89_returned",
    "Verif.Sem.C89_free"
   ],
   "note": "Whenever the mutex is free, `_count` is the number of acquisitions minus the number of effective unlocks. What `count()` returns is the number of acquisitions minus the number of effective unlocks so far. An `unlock` is effective exactly when some resource is allocated; otherwise it changes nothing."
  },
  {
   "property": "C90",
   "status": "proved",
   "theorems": [
    "Verif.Sem.C90_exact",
    "Verif.Sem.C90_returns",
    "Verif.Sem.C90_never_waits"
   ],
   "note": "`try_lock` succeeds exactly when fewer resources are allocated than available at the point of the log where it takes effect. `try_lock` never blocks: once it has the mutex it returns after at most four of its own steps, whatever the others do not do; the mutex is all it waits for. A thread in `try_lock` moves only between the steps of `try_lock`, it never joins the waiting threads."
  },
  {
   "property": "C91",
   "status": "proved",
   "theorems": [
    "Verif.Sem.C91_acquires",
    "Verif.Sem.C91_mutex_released",
    "Verif.Sem.C91_one_notified"
   ],
   "note": "Whenever a resource is free and the mutex is free, a thread blocked in `wait_for` acquires the resource by its own timed wake-up, without any notification. The mutex never stays locked: its owner leaves the critical section after at most five of its own steps. The timeout is what makes C91 true: raising the resources from 1 to 3 with two threads waiting wakes one of them; the other sleeps on next to a free resource until its timeout."
  },
  {
   "property": "C92",
   "status": "proved",
   "theorems": [
    "Verif.Sem.C92_atomic",
    "Verif.Sem.C92_set",
    "Verif.Sem.C92_acquire",
    "Verif.Sem.C92_throw"
   ],
   "note": "Every run of the semaphore, whatever the interleaving and the changes of the limit, is explained by a run of the atomic semaphore with the same observations, and the members agree with it whenever the mutex is free. `set_available_resources` changes only the limit. No acquisition takes effect while the count has reached the limit in force. `lock` throws only when the limit is 0 at its check, passes the check only when it is not, and a thread that passed the check returns from `lock` before anything else: it does not throw later."
  },
  {
   "property": "C93",
   "status": "proved",
   "theorems": [
    "Verif.MsgQueue.C93_fifo"
   ],
   "note": "Without `discard_messages`, the messages handed to `on_new_message` are always a prefix of the messages received: the rest are the message the worker is about to handle and the contents of the queue, in order."
  },
  {
   "property": "C94",
   "status": "partial",
   "theorems": [
    "Verif.MsgQueue.C94_counterexample",
    "Verif.MsgQueue.C94_processed_partial",
    "Verif.MsgQueue.C94_only_stop",
    "Verif.MsgQueue.C94_progress"
   ],
   "note": "The part that holds, for every container: when the thread ended and nothing was discarded, everything received before the worker's last emptiness test was processed, exactly once; only messages received after that test are left over. Missing: messages received after the last emptiness test but before `stop`, see the counterexample. C94_counterexample: the claim fails: the message is never processed. The worker ends only after `stop` was called. As long as `stop` was not called and nothing is to be discarded, the started worker, by its own steps and timeouts alone, processes every message received so far; the mutex of the queue is all it can wait for."
  },
  {
   "property": "C95",
   "status": "proved",
   "theorems": [
    "Verif.MsgQueue.C95_partition",
    "Verif.MsgQueue.C95_order",
    "Verif.MsgQueue.C95_only_asked"
   ],
   "note": "For every container, every received message is, exactly once, processed, discarded, in the hands of the worker or still queued. With a FIFO container the processed messages are a subsequence of the received ones, in order. Nothing is discarded unless `discard_messages` was called."
  },
  {
   "property": "C96",
   "status": "proved",
   "theorems": [
    "Verif.MsgQueue.C96_never_empty"
   ],
   "note": "The worker never takes a message from an empty container."
  },
  {
   "property": "C97",
   "status": "proved",
   "theorems": [
    "Verif.MsgQueue.C97_lifecycle",
    "Verif.MsgQueue.C97_never_throws",
    "Verif.MsgQueue.C97_twice"
   ],
   "note": "In every run, `on_start` is called once, before any message is handled, and `on_stop` once, after the last one; a new run begins only after the previous one ended. A worker never finds the queue already running, so it never throws. `run()` entered while the queue is running throws before any callback."
  },
  {
   "property": "C98",
   "status": "proved",
   "theorems": [
    "Verif.MsgQueue.C98_greatest",
    "Verif.MsgQueue.C98_taken"
   ],
   "note": "With a heap ordered by `lt`, the message taken at any moment is not less than any of those then in the container, i.e. of those received and neither processed nor discarded before. What is processed is what was taken, in that order; at most the last one taken is still in the hands of the worker."
  },
  {
   "property": "C99",
   "status": "proved",
   "theorems": [
    "Verif.MsgQueue.C99_lifts"
   ],
   "note": "`pointer_comparison` orders pointers as the pointees are ordered, and is a strict weak order when the order of the pointees is."
  },
  {
   "property": "C100",
   "status": "proved",
   "theorems": [
    "Verif.Thread.C100_observed",
    "Verif.Thread.C100_join_waits"
   ],
   "note": "The exit code and `is_running`, whenever and by whomever they are read, are right for the phase the thread is in (for a thread that is not started again before it is joined). `join` and the destructor return only after `run` has returned and its result has been stored."
  },
  {
   "property": "C101",
   "status": "partial",
   "theorems": [
    "Verif.Timer.C101_exact",
    "Verif.Timer.C101_counterexample_all",
    "Verif.Timer.C101_counterexample",
    "Verif.Timer.C101_counterexample_store",
    "Verif.Timer.C101_stops_partial"
   ],
   "note": "The part that holds: a `stop` whose store hits neither window is never undone. Whatever happens afterwards short of a new `start`, the flag stays cleared and `on_interval` is called at most once more; and whenever the mutex is not held by a client, the thread can run to its end by itself, within 38 steps, so `join` returns. Missing: the two windows, see the counterexamples. C101_counterexample_all: the claim fails, for every interval, as badly as possible: `stop` called before the thread sets `_is_running` is lost, any number of calls of `on_interval` follow, and the timer still runs. C101_counterexample_store: The second window: `_is_running = _is_running && \u2026` reads the flag, `stop` clears it, the thread writes it back. **C101, exactly:** a `stop` of a started timer can be undone by the thread, without a new `start`, if and only if it clears the flag before the thread has set it or between the load and the store of line 139."
  },
  {
   "property": "C102",
   "status": "proved",
   "theorems": [
    "Verif.Timer.C102_never_early",
    "Verif.Timer.C102_forward"
   ],
   "note": "Without `notify` and `set_interval`, and with a wall clock that is never set forward, no call of `on_interval` comes earlier than the interval after the end of the previous call, or after the start; whatever spurious wake-ups and delays there are, and however `duration_cast` rounds. The proviso about the clock is needed. When the system clock is set forward while the timer sleeps, a spurious wake-up makes it fire at once."
  },
  {
   "property": "C103",
   "status": "proved",
   "theorems": [
    "Verif.Timer.C103_failure",
    "Verif.Timer.C103_ends",
    "Verif.Timer.C103_callback"
   ],
   "note": "After a call of `on_interval` that did not return EXIT_SUCCESS there is no further call in that run, and `run` returns the value of the last call. And the run ends: from the moment the failure is returned, the thread reaches its end by itself. `timer_t` returns EXIT_SUCCESS exactly when its callback returned true."
  },
  {
   "property": "C104",
   "status": "partial",
   "theorems": [
    "Verif.Timer.C104_counterexample",
    "Verif.Timer.C104_counterexample_overlap",
    "Verif.Timer.C104_thread_partial",
    "Verif.Timer.C104_count_partial",
    "Verif.Timer.C104_exact"
   ],
   "note": "The part that holds: the callbacks of the thread itself come in the required order, `on_start` exactly once in each run before the first `on_interval`, `on_stop` exactly once after the last; either may be missing only when the object is being destroyed. Missing: the additional `on_stop` of every `stop`. C104_counterexample: the claim fails: both `stop` and the end of `run` call `on_stop`. C104_counterexample_overlap: moreover the `on_stop` of `stop` is not protected by the mutex, it can run while `on_interval` is executing. Exactly: as long as no destructor has marked the object, the callback `on_stop` has been called, whenever the thread is between two runs, once for each run and once more for each call of `stop` that got to its callback; and the calls of `stop` by a client that cleared `_is_running` all got there, except for the one the client is executing now. So `on_stop` was called exactly once per run precisely when every call of `stop` so far is still about to make its callback."
  },
  {
   "property": "C105",
   "status": "partial",
   "theorems": [
    "Verif.Fenwick.C105_exact",
    "Verif.Fenwick.C105_update_alias_partial",
    "Verif.Fenwick.C105_counterexample"
   ],
   "note": "Full claim: `update(p, tree[q])` adds the value that `tree[q]` had when the call was made. Proved when cell `q` is not one of the cells that the update of `p` modifies. Missing: `q` among them, for which the claim is false because the argument is a reference into the array (`C105_counterexample`). C105_counterexample: the claim fails: on `[1,1,1,1]`, `update(1, tree[1])` also changes element 2. **C105, exactly:** `update(p, tree[q])` adds the value `v` that `tree[q]` had if and only if `v = 0`, or the update does not modify cell `q`, or it modifies no cell after `q`; otherwise all cells modified after `q` get `v + v`."
  },
  {
   "property": "C106",
   "status": "partial",
   "theorems": [
    "Verif.Fenwick.C106_exact",
    "Verif.Fenwick.C106_product_set_value_partial",
    "Verif.Fenwick.C106_counterexample"
   ],
   "note": "Full claim: `set_value p v` on a product tree makes element `p` equal to `v`. Exactly when it holds: the elements before and at `p` are nonzero, `v \u2260 0` and the old element divides `v`. Missing: the other cases, for which the claim is false (`C106_counterexample`, `C106_exact`). C106_counterexample: the claim fails: `set_value(1, 3)` on `[2]` leaves 2, `set_value(1,0)` on `[2]` leaves 2, and `set_value(1,7)` on `[0]` divides by zero. Exactly as the code behaves, for a valid position: with a zero at or before `p` the call divides by zero; otherwise it succeeds, and afterwards element `p` is the old one times the truncated quotient (unchanged if that is 0)."
  },
  {
   "property": "C107",
   "status": "partial",
   "theorems": [
    "Verif.Seqs.C107_sound_partial",
    "Verif.Seqs.C107_counterexample_left",
    "Verif.Seqs.C107_counterexample",
    "Verif.Seqs.C107_find_partial",
    "Verif.Seqs.C107_exact"
   ],
   "note": "Soundness: on an exact geometric progression with one element removed, whatever is reported is the removed element (any tolerance `err \u2265 0`). The part that holds: a missing element at, or right after, the middle is found if its absence leaves a jump larger than the tolerance; so is a missing first element. Missing: the other positions; `C107_exact` says what happens there. C107_counterexample_left: the claim fails: the test `*mid <= expected + err || *mid >= expected - err` is always true, the search only ever moves right, and an element missing from the left half is never found, whatever the progression. Exactly: of a progression of five elements or more, a missing element whose absence leaves a jump larger than the tolerance is found at four positions only, at and after the half and at and after three quarters. For all others, five, six, seven and nine elements are reported to be complete, and from longer sequences the function reads past the end."
  },
  {
   "property": "C108",
   "status": "partial",
   "theorems": [
    "Verif.Sem.C108_counterexample",
    "Verif.Sem.C108_races_partial",
    "Verif.Sem.C108_exact"
   ],
   "note": "The part that holds: every race involves `max_count` and `set_available_resources`; all other operations access the members under the mutex only. Missing: `max_count` without the mutex, see the counterexample. C108_counterexample: the claim fails: `max_count` reads `_available_resources` without the mutex, next to `set_available_resources`. **C108, exactly:** the semaphore is raced for if and only if one thread is about to read in `max_count` while another is about to write in `set_available_resources`."
  },
  {
   "property": "C109",
   "status": "partial",
   "theorems": [
    "Verif.MsgQueue.C109_exact",
    "Verif.MsgQueue.C109_counterexample",
    "Verif.MsgQueue.C109_counterexample_running",
    "Verif.MsgQueue.C109_races_partial"
   ],
   "note": "The part that holds: clients never race with each other, and a client races with the worker only in the two ways of the counterexamples. Missing: the two unprotected reads. C109_counterexample: the claim fails: the worker evaluates `_queue.empty()` without the mutex of the queue, here while a client inserts. C109_counterexample_running: the claim fails also for `_running`, a plain `bool`: `is_running()` reads it while the worker writes it. **C109, exactly:** the races are these two: the emptiness tests of lines 143 and 153 against a client that inserts, and the stores of `_running` in lines 140 and 158 against `is_running()`."
  },
  {
   "property": "C110",
   "status": "partial",
   "theorems": [
    "Verif.MsgQueue.C110_exact",
    "Verif.MsgQueue.C110_counterexample",
    "Verif.MsgQueue.C110_first_partial"
   ],
   "note": "The part that holds: no run ends before the first call of `stop`. Missing: the second and later runs. C110_counterexample: the claim fails: `_stopped` is never reset, the second run ends at once. **C110, exactly:** a queue that is started, for the first time or again, ends by itself, without any client doing anything more, if and only if `stop` was called at any time before, be it in an earlier run or before the first."
  },
  {
   "property": "C111",
   "status": "partial",
   "theorems": [
    "Verif.Thread.C111_counterexample",
    "Verif.Thread.C111_counterexample_destroy",
    "Verif.Thread.C111_careful_partial",
    "Verif.Thread.C111_start_exact",
    "Verif.Thread.C111_dtor_exact"
   ],
   "note": "The part that holds: an owner who joins before starting again and before destroying is safe. Missing: any other order. C111_counterexample: the claim fails: starting again a thread that has finished, but was not joined, calls `std::terminate`. C111_counterexample_destroy: the claim fails: a started object may be destroyed before the new thread reaches `run`; `~thread_t` joins too late. **C111, exactly, for `start`:** it ends the program if and only if the thread was started before and has not been joined since. **C111, exactly, for the destructor:** a pure virtual function can be called after it if and only if the thread was started and has not yet entered `run`."
  },
  {
   "property": "C112",
   "status": "partial",
   "theorems": [
    "Verif.Thread.C112_counterexample",
    "Verif.Thread.C112_joined_partial",
    "Verif.Thread.C112_exact",
    "Verif.Thread.C112_always"
   ],
   "note": "The part that holds: before `start` and after `join` there is no race. Missing: the time in between. C112_counterexample: the claim fails for every observer that does not join first. **C112, exactly:** `_exit_code` is raced for between the return of `run` and the end of the thread, as long as the object exists. The object always exists then, unless the thread was started twice: every return of `run` is a race with every observer."
  },
  {
   "property": "C113",
   "status": "partial",
   "theorems": [
    "Verif.Timer.C113_exact",
    "Verif.Timer.C113_reached",
    "Verif.Timer.C113_counterexample",
    "Verif.Timer.C113_races_partial"
   ],
   "note": "The part that holds: `set_interval` is needed for a race. Missing: `set_interval` on a started timer. C113_counterexample: the claim fails: `set_interval` writes `_interval_ms` while `run` reads it. **C113, exactly:** there is a race if and only if a client is about to write the interval while the thread is about to read it: at the beginning of `run` (line 127) or when it computes the remaining time (lines 140, 143-144). **C113:** each of these moments is reached while a client is about to write."
  },
  {
   "property": "C114",
   "status": "partial",
   "theorems": [
    "Verif.Timer.C114_exact",
    "Verif.Timer.C114_counterexample",
    "Verif.Timer.C114_pending_partial"
   ],
   "note": "The part that holds: a `notify` that does not come during `on_interval` stays pending until the next call of `on_interval`, and the next time the thread wakes up it makes that call. Missing: a `notify` during the call. C114_counterexample: the claim fails: a `notify` during `on_interval` is wiped out by the assignment after the call. **C114, exactly:** a `notify` can be forgotten before any further call of `on_interval` if and only if it is set while `on_interval` is being executed, or has just returned."
  },
  {
   "property": "C115",
   "status": "proved",
   "theorems": [
    "Verif.MsgQueue.C115_observers"
   ],
   "note": "Whatever the threads do, `size()` returns the number of messages inserted and not yet taken out or dropped at the moment it answers, and `empty()` whether there is none."
  },
  {
   "property": "C116",
   "status": "proved",
   "theorems": [
    "Verif.Mem.C116_memory_safe"
   ],
   "note": "Every program over any number of trees (calls, copies, moves, also to itself, destructions) runs without UB: no null pointer or deleted node is accessed, nothing is deleted twice, every call returns. Every pointer in a tree leads to an allocated node, and no node is reachable in two ways (in one tree or in two)."
  },
  {
   "property": "C117",
   "status": "partial",
   "theorems": [
    "Verif.Mem.C117_counterexample",
    "Verif.Mem.C117_counterexample_move",
    "Verif.Mem.C117_counterexample_self",
    "Verif.Mem.C117_counterexample_self_move",
    "Verif.Mem.C117_exact",
    "Verif.Mem.C117_lost_for_ever",
    "Verif.Mem.C117_no_leak_partial"
   ],
   "note": "The part that holds: if every assignment goes to a tree that is empty at that time (which includes all constructions) or copies an empty one, every allocated node is reachable from a tree, and when all trees are empty no node is left. Missing: the other assignments, all of which lose nodes (`C117_exact`). C117_counterexample: the claim fails: `a = b` with a non-empty `a` leaks the nodes of `a`. C117_counterexample_move: the claim fails: `a = std::move(b)` with a non-empty `a` leaks the nodes of `a`. Exactly when it fails: a node is lost at the end if and only if some assignment overwrote a non-empty tree (by a non-empty one, or by a move). A node that is lost stays lost: no later operation frees it or brings it back."
  },
  {
   "property": "C118",
   "status": "partial",
   "theorems": [
    "Verif.Mem.C118_counterexample",
    "Verif.Mem.C118_counterexample_self_move",
    "Verif.Mem.C118_counterexample_empty",
    "Verif.Mem.C118_counterexample_self",
    "Verif.Mem.C118_independent_partial",
    "Verif.Mem.C118_reading_unique"
   ],
   "note": "The part that holds: without self-assignment and without copying an empty tree to a non-empty one, all results and contents agree, and so do the counters of all trees that were not moved from (since they were last cleared or assigned). Missing: those two kinds of assignment, and the counters of trees moved from. C118_counterexample: the claim fails: a tree that was moved from is empty, but `size()` still returns the old number. C118_counterexample_self_move: the claim fails: `a = std::move(a)` empties the tree. The reading is unique, so the contents of a tree are determined."
  },
  {
   "property": "C119",
   "status": "proved",
   "theorems": [
    "Verif.Mem.C119_insert",
    "Verif.Mem.C119_remove",
    "Verif.Mem.C119_contains"
   ],
   "note": "`insert`, called with a reference to the value of any live node (also of the same tree), does what it does with a copy of the value. The same for `remove`, though it may overwrite or delete the node that the reference points to. The same for `contains`."
  },
  {
   "property": "C120",
   "status": "partial",
   "theorems": [
    "Verif.Mem.C120_undefined",
    "Verif.Mem.C120_counterexample",
    "Verif.Mem.C120_other_tree_partial"
   ],
   "note": "The part that holds: the node belongs to another tree. Missing: the nodes of the tree itself, where `C120_undefined` shows that the call is UB. C120_counterexample: the claim fails: on a tree with the values 1 and 2, `t.remove_all(t.root().get())` reads a deleted node. The claim fails for every tree of at least two values without duplicates, and every node of it: after some rounds of the loop, each of which removes a value (the wrong one from the second round on), the node is deleted, and the next round reads the value of the deleted node."
  },
  {
   "property": "C121",
   "status": "partial",
   "theorems": [
    "Verif.Avl.C121_counterexample_linear",
    "Verif.Avl.C121_counterexample",
    "Verif.Avl.C121_insertions_partial"
   ],
   "note": "The part that holds: without removals (and without duplicates) the depth is at most `2\u00b7log2(n + 1) + 1`. Missing: histories with removals. C121_counterexample_linear: the claim fails as badly as possible: for every `m` there is a history of `8 + 41\u00b7m` insertions and removals after which the tree has `m + 8` elements and height `m + 4`; it is a linked list but for the last eight elements. C121_counterexample: the claim fails for every constant."
  },
  {
   "property": "C122",
   "status": "partial",
   "theorems": [
    "Verif.Mem.C122_counterexample",
    "Verif.Mem.C122_counterexample_ancestor",
    "Verif.Mem.C122_undefined_iff",
    "Verif.Mem.C122_copy_diverges",
    "Verif.Mem.C122_memory_safe_partial"
   ],
   "note": "The part that holds: a program without such assignments ends without UB, every pointer in a tree leads to an allocated node, and no node is reachable in two ways. Missing: the assignments of `C122_undefined_iff`, which are UB. C122_counterexample: the claim fails: `n = n.left()` deletes the left child before reading it. C122_counterexample_ancestor: the claim fails: `n.left() = n` copies for ever. Exactly when it fails: a program is UB if and only if it comes to an assignment of a node from a proper descendant (copy or move), or to a copy assignment from a proper ancestor, and both nodes exist. Copying from a proper ancestor does not end, however many calls are allowed."
  },
  {
   "property": "C123",
   "status": "partial",
   "theorems": [
    "Verif.Mem.C123_counterexample",
    "Verif.Mem.C123_counterexample_tree",
    "Verif.Mem.C123_counterexample_empty",
    "Verif.Mem.C123_contents_partial",
    "Verif.Mem.C123_unique"
   ],
   "note": "The part that holds: node assignments are between separate nodes, trees are not assigned to themselves, and empty trees are not copied to non-empty ones. Missing: the other assignments (see the counterexamples and C122). C123_counterexample: the claim fails: `n = n` for a node deletes its children. C123_counterexample_tree: the claim fails: `t = t` for a tree replaces it by one node. What hangs at a pointer is determined."
  },
  {
   "property": "C124",
   "status": "partial",
   "theorems": [
    "Verif.Mem.C124_counterexample",
    "Verif.Mem.C124_parent_partial"
   ],
   "note": "The part that holds: node assignments are between separate nodes, and only roots are moved from. Missing: moving from a node that is not a root, which the counterexample shows to fail, and the assignments of C122. C124_counterexample: the claim fails: `u.root() = std::move(t.root().left())` leaves the moved-from node in `t`, without a parent."
  },
  {
   "property": "C125",
   "status": "partial",
   "theorems": [
    "Verif.Mem.C125_counterexample",
    "Verif.Mem.C125_counterexample_cycle",
    "Verif.Mem.C125_exact",
    "Verif.Mem.C125_lost_for_ever",
    "Verif.Mem.C125_no_leak_partial"
   ],
   "note": "The part that holds: node assignments are between separate nodes, and trees are assigned to other, empty trees only. Missing: the other assignments (`C125_exact` says which of them lose nodes). C125_counterexample: the claim fails: `t = u` with a non-empty `t` leaks the nodes of `t`. C125_counterexample_cycle: the claim fails: `n.left() = std::move(n)` makes a cycle of nodes that no tree contains. Exactly when it fails, for the programs that run to their end (C122): a node is lost at the end if and only if some operation assigned a tree to a non-empty tree (other than by copying an empty tree) or moved a node to a proper descendant. A node that is lost stays lost: no safe operation frees it or brings it back."
  },
  {
   "property": "C126",
   "status": "partial",
   "theorems": [
    "Verif.Mem.C126_undefined",
    "Verif.Mem.C126_counterexample",
    "Verif.Mem.C126_other_partial",
    "Verif.Mem.C126_add_child"
   ],
   "note": "The part that holds: the node is not in the tree that gets the new root. Missing: the nodes of that tree, where `C126_undefined` shows that the call is UB. The claim fails for every node of the tree itself: the node is deleted before its value is read. `add_left` and `add_right` may be given a reference to any live value."
  },
  {
   "property": "C127",
   "status": "partial",
   "theorems": [
    "Verif.Timer.C127_not_late_partial",
    "Verif.Timer.C127_undisturbed_partial",
    "Verif.Timer.C127_timeout",
    "Verif.Timer.C127_counterexample_all",
    "Verif.Timer.C127_counterexample"
   ],
   "note": "Full claim: `C127_statement`, that the call is due after the interval and the time the thread was awake. Proved: at most a millisecond per wake-up without timeout more; so the full claim holds for intervals without wake-up. Missing: intervals with such wake-ups, for which the claim is false (`C127_counterexample`). The same for intervals without wake-up, as in the full claim. C127_counterexample_all: the claim fails, for every interval and without any bound: woken often enough, a thread that loses no time never calls `on_interval`. Any amount of time `T` passes after the start. When the time is over and the timer has not been stopped, the thread calls `on_interval`, in four steps of its own, unless a client holds the mutex."
  },
  {
   "property": "C128",
   "status": "partial",
   "theorems": [
    "Verif.Timer.C128_stop_partial",
    "Verif.Timer.C128_stop_exact",
    "Verif.Timer.C128_stop_counterexample",
    "Verif.Timer.C128_notify_partial",
    "Verif.Timer.C128_notify_counterexample"
   ],
   "note": "`stop`. Full claim: `C128_stop_statement`. Proved: it holds for every notification that does not come between the thread's test of `_is_running` and its falling asleep. Missing: that moment, for which the claim is false (`C128_stop_exact`). `notify`. Full claim: `C128_notify_statement`. Proved: it holds when the thread is asleep at that moment, or has woken up and has not yet tested the request. Missing: the rest of the loop, for which the claim is false (`C128_notify_counterexample`). C128_stop_counterexample: the claim fails for `stop`: the thread sleeps for an hour although the timer has been stopped; `join` and the destructor wait for it. C128_notify_counterexample: the claim fails for `notify`: a request that comes just before the thread falls asleep is served an hour later. Exactly, for `stop`: as long as no client holds the mutex, the notification is lost if and only if it comes between the test of the flag and the sleep; then the thread goes to sleep for the whole remaining time."
  },
  {
   "property": "C129",
   "status": "partial",
   "theorems": [
    "Verif.NMem.C129_counterexample",
    "Verif.NMem.C129_counterexample_node",
    "Verif.NMem.C129_counterexample_replace",
    "Verif.NMem.C129_memory_safe_partial",
    "Verif.NMem.C129_assign_fatal",
    "Verif.NMem.C129_copy_fatal",
    "Verif.NMem.C129_replace_fatal"
   ],
   "note": "The part that holds: a program that copies no nodes or trees with children, except to themselves or to nodes above, and uses `replace_at` below the maximum only. It ends without UB, every pointer leads to an allocated node, and no node is reachable in two ways. Missing: the other copies and uses of `replace_at`, which are UB sooner or later (see `C129_assign_fatal`, `C129_copy_fatal` and `C129_replace_fatal`). C129_counterexample: the claim fails: a copy of a tree of two nodes, and both trees are destroyed. C129_counterexample_node: the claim fails: `a = b` for two children of one node, where `b` has a child; then the tree is destroyed. When a node with children is copied to a node that is not the same and not above, then the destruction of the two variables, with nothing between, is UB. When a tree whose root has children is copied to another tree, then the destruction of the two trees is UB. `replace_at` at or beyond the maximum is UB at once, for every node."
  },
  {
   "property": "C130",
   "status": "partial",
   "theorems": [
    "Verif.NMem.C130_counterexample",
    "Verif.NMem.C130_counterexample_self",
    "Verif.NMem.C130_counterexample_tree",
    "Verif.NMem.C130_counterexample_empty",
    "Verif.NMem.C130_contents_partial",
    "Verif.NMem.C130_unique"
   ],
   "note": "The part that holds: besides the condition of C129, no node is moved to itself, no tree is copied to itself, and no empty tree is copied to a non-empty one. Missing: these assignments (see the counterexamples) and those of C129. C130_counterexample: the claim fails: a change of a copy of a tree changes the original. C130_counterexample_self: the claim fails: `n = std::move(n)` loses the children of the node. What a variable holds is determined."
  },
  {
   "property": "C131",
   "status": "partial",
   "theorems": [
    "Verif.NMem.C131_counterexample",
    "Verif.NMem.C131_counterexample_move",
    "Verif.NMem.C131_counterexample_dangling",
    "Verif.NMem.C131_parent_partial"
   ],
   "note": "The part that holds: nodes are assigned (copied or moved) only from childless siblings, or root from childless root. Missing: the other assignments (see the counterexamples). C131_counterexample: the claim fails: `t.root() = u.root().child(0)` copies the parent too. C131_counterexample_move: the claim fails: `t.root() = std::move(u.root().child(0))` as well."
  },
  {
   "property": "C132",
   "status": "partial",
   "theorems": [
    "Verif.NMem.C132_exact_partial",
    "Verif.NMem.C132_lost_for_ever",
    "Verif.NMem.C132_counterexample",
    "Verif.NMem.C132_counterexample_node"
   ],
   "note": "Exactly when it fails, for the programs of C129: something is lost at the end if and only if some statement copied a node to another one with children, or moved a node to one with children or to one below, or copied a non-empty tree to a non-empty one, or moved a tree to a non-empty one. C132_counterexample: the claim fails: `t = std::move(u)` with a non-empty `t` leaks the nodes of `t`. C132_counterexample_node: the claim fails: `n = std::move(m)` leaks the children of `n`. What is lost stays lost: no safe program finds it again or deletes it."
  },
  {
   "property": "C133",
   "status": "proved",
   "theorems": [
    "Verif.NMem.C133_max",
    "Verif.NMem.C133_tight"
   ],
   "note": "No node ever has more than `max_node_size` slots, whatever the program does (the condition of C129 is not needed). The bound is reached."
  },
  {
   "property": "C134",
   "status": "partial",
   "theorems": [
    "Verif.MsgQueue.C134_counterexample",
    "Verif.MsgQueue.C134_counterexample_torn",
    "Verif.MsgQueue.C134_joined",
    "Verif.MsgQueue.C134_safe_delete_partial",
    "Verif.MsgQueue.C134_exact",
    "Verif.MsgQueue.C134_empty_partial",
    "Verif.MsgQueue.C134_ends"
   ],
   "note": "The part that holds: if the destructor of the derived class begins with `safe_delete`, then whatever the threads do, before and during the destruction, no pure virtual function is called and no callback is interrupted by the destruction. In particular a queue that is empty when the derived class is destroyed, whose worker holds no message and that nobody uses any more, is destroyed safely even without `safe_delete`. C134_counterexample: does not hold: the queue has been stopped, and destroying it still calls the pure virtual `on_new_message`. C134_counterexample_torn: nor is a callback that is being executed waited for before the members it works on are destroyed. The destructor waits for the thread in any case: when the object is gone there is no thread inside `run`, the container is empty, and no step of any thread can touch the object. Exactly: let the derived class have just been destroyed without `safe_delete`, and let nobody use the queue any more. The pure virtual `on_new_message` can be called, in some order of the remaining steps, if and only if the worker holds a message or will look at one that waits. `safe_delete` in the destructor of the derived class comes to an end, however many messages are waiting: once it has been called and nobody uses the queue any more, steps of the worker and of the owner lead to the end of the object."
  },
  {
   "property": "C135",
   "status": "partial",
   "theorems": [
    "Verif.Timer.C135_counterexample",
    "Verif.Timer.C135_counterexample_torn",
    "Verif.Timer.C135_joined",
    "Verif.Timer.C135_safe_delete_partial",
    "Verif.Timer.C135_joined_before_partial",
    "Verif.Timer.C135_exact",
    "Verif.Timer.C135_hang"
   ],
   "note": "The part that holds: if the destructor of the derived class begins with `safe_delete`, then whatever the threads do, before and during the destruction, no pure virtual function is called and no function of the derived class is interrupted. A timer that has not been started, or whose thread has ended (`stop(true)` has returned), is destroyed safely even without `safe_delete`. C135_counterexample: does not hold for the library's `timer_t`: `stop` has returned, and destroying the timer still leads to a call of the pure virtual `on_interval`. C135_counterexample_torn: nor is `on_interval` waited for before what it works on is destroyed; for `timer_t` that is the `std::function` being executed. The destructor waits for the thread in any case: when the object is gone there is no thread inside `run`, and no step of the thread, of the owner or of a client can touch the object. Exactly: let the derived class have just been destroyed without `safe_delete`, and let nobody but the destructor use the timer any more. The pure virtual `on_interval` can be called, in some order of the remaining steps, if and only if the thread has been started and has not yet met, in its loop, a cleared `_is_running`. In particular a timer whose thread has not yet set `_is_running` cannot be destroyed safely, even if it has been stopped. Even a derived class that calls `safe_delete` may not be destroyed properly: if the thread has not yet set `_is_running` the stop is lost, and the destructor waits for ever, whatever happens, as long as `on_interval` reports success and nobody stops the timer once more."
  },
  {
   "property": "C136",
   "status": "partial",
   "theorems": [
    "Verif.Mem.C136_counterexample",
    "Verif.Mem.C136_undefined_iff",
    "Verif.Mem.C136_memory_partial"
   ],
   "note": "The part that holds: without such assignments every program ends without UB, every pointer in a tree leads to an allocated node, no node is reachable in two ways, and a node is lost if and only if an assignment overwrote a non-empty tree or moved a node to a proper descendant. Missing: the assignments of `C136_undefined_iff`, and those that lose nodes. C136_counterexample: the claim fails as C122 does: a node is assigned from its child. Exactly when a program is UB: it comes to a node assignment from a proper descendant, or to a copy from a proper ancestor, and both nodes exist. The functions of `avl_tree_t` themselves are never UB, whatever was done to the values, the shape and the stored heights through the base class."
  },
  {
   "property": "C137",
   "status": "partial",
   "theorems": [
    "Verif.Mem.C137_counterexample",
    "Verif.Mem.C137_counterexample_wrap",
    "Verif.Mem.C137_counterexample_order",
    "Verif.Mem.C137_call_partial",
    "Verif.Mem.C137_ordered_partial"
   ],
   "note": "The part that holds: as long as the values of tree `k` are in order, whatever its shape, its heights and its counter became through the base class, every call works as on the multiset of its values: `contains` finds exactly them, the result and the new values are right and in order, the other trees do not change, and the counter changes by as much as the number of values (after `clear` it is right). Missing: trees out of order, and the counter itself, if the base class was used to change them. Only the base class can bring trees out of order: if every operation of the base class leaves all trees in order, they are in order at the end. Missing: as above. C137_counterexample: the claim fails: after `t.add_root(5)` the tree has one value and `size()` is 0. C137_counterexample_wrap: the claim fails: the counter wraps around: `t.add_root(5); t.remove(5)` leaves an empty tree with `size()` 2^64 - 1."
  },
  {
   "property": "C138",
   "status": "partial",
   "theorems": [
    "Verif.Mem.C138_counterexample",
    "Verif.Mem.C138_counterexample_others",
    "Verif.Mem.C138_counterexample_pos",
    "Verif.Mem.C138_counterexample_sibling",
    "Verif.Mem.C138_local_partial",
    "Verif.Mem.C138_ends_partial",
    "Verif.Mem.C138_endless"
   ],
   "note": "The part that holds: a callback may add nodes, delete nodes and change values below the node it is called with, and the callback of `pos_order` may at last delete that node through its parent. The traversal is not UB, it returns the number of its visits, and all pointers in the trees lead to allocated nodes afterwards. Missing: callbacks that change other parts of the trees. If the callback adds no nodes either: the traversal ends, and it visits only nodes of the tree, each at most once. C138_counterexample: the claim fails: `t.insert(1); t.in_order([&](const auto& n) { t.remove(n.get()); return false; })` reads the deleted node. C138_counterexample_others: the claim fails for `pre_order` and both searches with the same callback, also if it answers true for the searches. A local callback that adds nodes may keep the traversal going forever: `pre_order` with a callback that calls `add_left` on its node does not end."
  },
  {
   "property": "C139",
   "status": "proved",
   "theorems": [
    "Verif.Mem.C139_order"
   ],
   "note": "A traversal whose callback only changes values (`set_value`, `swap`), of any nodes of any trees, and never stops it, ends, visits every node of the tree exactly once, in the order of the traversal, returns their number, and leaves the nodes and the shape of all trees."
  },
  {
   "property": "C140",
   "status": "partial",
   "theorems": [
    "Verif.Cache.C140_quiet_partial",
    "Verif.Cache.C140_unique",
    "Verif.Cache.C140_counterexample",
    "Verif.Cache.C140_clear",
    "Verif.Cache.C140_counterexample_add",
    "Verif.Cache.C140_counterexample_capacity",
    "Verif.Cache.C140_endless"
   ],
   "note": "The part that holds: if the override never makes the cache discard while it is discarding, and does not clear it, then every history of calls ends and does what the specification says: each discarded key is reported once, and what the override does counts. It is undefined only for an `operator[]` whose key is gone again after it was added. Missing: other overrides. C140_counterexample: the claim fails: an override that calls `clear()`; after it `clip` removes the last node of an empty list. C140_counterexample_add: the claim fails: an override that adds another key. The nested call discards the same key again and more, and the outer one then removes a node whose map entry stays: 3 is said to be in the cache, but the cache has only 99, and looking for 3 is undefined. The specification of `C140_quiet_partial` determines the results. An override that calls `clear()` and nothing else makes every discard undefined. An override that begins with `clip()`, or puts the discarded key back, never returns: each of the nested calls discards the same key again."
  },
  {
   "property": "C141",
   "status": "partial",
   "theorems": [
    "Verif.Cache.C141_coherent_partial",
    "Verif.Cache.C141_defined_partial",
    "Verif.Cache.C141_clear",
    "Verif.Cache.C141_counterexample",
    "Verif.Cache.C141_counterexample_twice",
    "Verif.Cache.C141_counterexample_find",
    "Verif.Cache.C141_counterexample_remove",
    "Verif.Cache.C141_counterexample_discard",
    "Verif.Cache.C141_counterexample_access"
   ],
   "note": "The part that holds: exceptions of the hash function and the comparison in lookups and in `clip`, of the allocation of the list node in `add`, of the copy of the key and of `reserve` leave a coherent cache. Missing: exceptions elsewhere. The part that holds of the other exceptions: if none happens in `move_to_front` after the old node is gone, or in `remove`, then every history without `operator[]` is defined, although nodes may be in the list that the map does not know. C141_counterexample: the claim fails: the allocation of the map entry in `add(1)` throws. The cache then has 1 in its list but says that it does not contain it. C141_counterexample_twice: the claim fails: after that exception the same key can be added twice. Whatever was thrown before, `clear()` repairs the cache: after it every history of calls behaves like the abstract recency list (C21)."
  },
  {
   "property": "C142",
   "status": "partial",
   "theorems": [
    "Verif.Fenwick.C142_signed_partial",
    "Verif.Fenwick.C142_set_value_exact",
    "Verif.Fenwick.C142_exact",
    "Verif.Fenwick.C142_update_exact",
    "Verif.Fenwick.C142_counterexample"
   ],
   "note": "The part that holds: no call overflows if in addition the new value of every `set_value` and the old one have a distance that fits. Missing: `set_value` with a distance that does not fit. C142_counterexample: the claim fails: a tree with the one element `lo`, which `set_value` replaces by `hi`. Exactly: when the sums fit before and after it, `set_value` overflows if and only if the distance of the two values does not fit. The converse: a tree is built, and answers every query, without overflow exactly if all sums of neighbouring elements fit. The converse for `update`: on a tree whose sums fit, an update and all queries after it return exactly if the sums of the new elements fit."
  },
  {
   "property": "C143",
   "status": "partial",
   "theorems": [
    "Verif.Seqs.C143_exact",
    "Verif.Seqs.C143_signed_partial",
    "Verif.Seqs.C143_counterexample"
   ],
   "note": "The part that holds: nothing overflows if the sums of neighbouring elements fit and their distances from the required sum do. Missing: distances that do not fit. C143_counterexample: the claim fails: the required sum 1 and the one element `lo`. Exactly: `max_length_of_sum` is defined if and only if each prefix sum fits and, unless it is the required sum, its distance from the required sum fits too; then the result is that of C73 and C74."
  },
  {
   "property": "C144",
   "status": "partial",
   "theorems": [
    "Verif.Seqs.C144_exact",
    "Verif.Seqs.C144_signed_partial",
    "Verif.Seqs.C144_counterexample"
   ],
   "note": "The part that holds: nothing overflows if the sums of neighbouring elements fit, also when the first element is counted twice. Missing: sequences whose repeated first element makes a sum that does not fit. C144_counterexample: the claim fails: for one element, `max_sum_of` computes its double. Exactly: `max_sum_of` is defined if and only if each element fits when added to the greatest sum that ends just before it, where the first element counts twice (C75)."
  },
  {
   "property": "C145",
   "status": "partial",
   "theorems": [
    "Verif.Seqs.C145_exact",
    "Verif.Seqs.C145_signed_partial",
    "Verif.Seqs.C145_counterexample"
   ],
   "note": "The part that holds: for elements that are not negative, with a total that fits the type, and a wanted sum that is not negative, nothing overflows. Missing: other sums whose differences do not fit. C145_counterexample: the claim fails: looking for the sum `lo` among the subsets of `[1]`. Exactly: for a wanted sum of the type, `sum_of_subsets` is defined if and only if the difference between the wanted sum and the sum of every subset fits the type; then it counts the subsets (C76)."
  },
  {
   "property": "C146",
   "status": "partial",
   "theorems": [
    "Verif.MsgQueue.C146_reentrant_partial",
    "Verif.MsgQueue.C146_fifo",
    "Verif.MsgQueue.C146_terminates",
    "Verif.MsgQueue.C146_counterexample"
   ],
   "note": "The part that holds: callbacks that call `receive_message`, `send`, `stop`, `discard_messages`, `size`, `empty` and `is_running`, in any number and depending on the whole history, do not terminate the program, their calls return, no call is left when they return, and the queue is in a state that it reaches also when other threads make these calls: all theorems about `Reach` (C93 to C98, C115) hold. Missing: `start`, `join` and `safe_delete`. In particular, the messages of a FIFO queue are processed in the order in which clients and callbacks sent them. The calls of `start` and `join` do end the program: the step in which a callback makes one terminates it."
  },
  {
   "property": "C147",
   "status": "partial",
   "theorems": [
    "Verif.Timer.C147_reentrant_partial",
    "Verif.Timer.C147_stop_partial",
    "Verif.Timer.C147_counterexample",
    "Verif.Timer.C147_start_lost",
    "Verif.Timer.C147_terminates",
    "Verif.Timer.C147_deadlock"
   ],
   "note": "The part that holds: callbacks that call `stop`, `notify` and `set_interval`, in any number and depending on the whole state, do not terminate the program, their calls return without waiting for other threads, and the timer is in a state that it reaches also when other threads make these calls: all theorems about `Reach` (C101 to C104, C113, C114) hold. Missing: `start`, `join`, `stop(true)`, `safe_delete` and the destructor. The part that holds: a `stop` called by `on_interval` or by `on_stop` is obeyed, whatever else the callback and other threads call. Missing: one called by `on_start`. C147_counterexample: the claim fails: a `stop` called by `on_start` is overwritten by `_is_running = true` (timer.h:130). It is always overwritten: when the loop begins, the flag is set. The claim fails for the other calls: `start` and `join` (hence `stop(true)`) end the program. The claim fails for the destructor: a timer that is destroyed by its own callback waits for ever for the mutex that its thread holds."
  },
  {
   "property": "C148",
   "status": "proved",
   "theorems": [
    "Verif.Lockable.C148_atomic",
    "Verif.Lockable.C148_no_race",
    "Verif.Lockable.C148_isolated",
    "Verif.Lockable.C148_shared",
    "Verif.Lockable.C148_available",
    "Verif.Lockable.C148_discipline_needed"
   ],
   "note": "**C148.** If every thread follows the discipline, nothing undefined happens and what the threads read and copy is what one thread would read and copy that made the same calls on a plain object, one after the other. **C148.** No data race: two threads never stand before accesses to the same part, one of them a write. **C148.** From the time a thread has taken the mutex until it releases it no other thread reads or changes the object: all its accesses of this time are one atomic operation. **C148.** While a thread is a shared owner nobody changes the object. **C148.** The mutex is never stuck: when nobody owns it any thread that does nothing else can take it. The discipline is needed: the assignment and the copy of a `lockable_t` do not take its mutex. Thread 1 assigns the values 7, 7 to an object with 0, 0 while thread 2 copies it, and gets 7, 0."
  },
  {
   "property": "C149",
   "status": "partial",
   "theorems": [
    "Verif.Lockable.C149_construct_partial",
    "Verif.Lockable.C149_contents",
    "Verif.Lockable.C149_assign",
    "Verif.Lockable.C149_counterexample"
   ],
   "note": "**C149, partial.** Missing: an rvalue of type `T`. C149_counterexample: the claim fails: `lockable_t<T> b(std::move(a))` with `a` of type `T` copies every element, for every `a` that has one, and leaves `a` as it was. Also an rvalue of type `T` gives the right contents. For the assignments."
  },
  {
   "property": "C150",
   "status": "partial",
   "theorems": [
    "Verif.Tools.C150_unsigned_partial",
    "Verif.Tools.C150_counterexample",
    "Verif.Tools.C150_exact"
   ],
   "note": "**C150, partial.** It holds where `char` is unsigned. Missing: platforms with a signed `char`. C150_counterexample: the claim fails where `char` is signed: for every class of characters the table cannot be made, since the loop passes -128 to the classification function. Which characters are to blame: exactly those from 128 to 254."
  },
  {
   "property": "C151",
   "status": "partial",
   "theorems": [
    "Verif.RandomThreads.C151_serial_partial",
    "Verif.RandomThreads.C151_counterexample"
   ],
   "note": "**C151, partial.** It holds when the calls do not overlap, and then no two threads access the generator at the same time. Missing: calls that overlap. C151_counterexample: the claim fails for every generator whose first two numbers differ: two threads that call at the same time get the same number (and race on the generator, which is undefined)."
  },
  {
   "property": "C152",
   "status": "proved",
   "theorems": [
    "Verif.Timestamp.C152_since_reset",
    "Verif.Timestamp.C152_accurate",
    "Verif.Timestamp.C152_monotone",
    "Verif.Timestamp.C152_unsteady"
   ],
   "note": "**C152.** Whatever was called before, `elapsed` and `difference` tell the time since the last reset (or the construction), in whole units towards zero. **C152.** When the clock does not go backwards the result is never negative, never more than the time that passed, and less by less than one unit. **C152.** Between resets the results do not decrease when the clock does not. `high_resolution_clock` need not be steady: when it is set back the result can be negative."
  },
  {
   "property": "C153",
   "status": "partial",
   "theorems": [
    "Verif.Seqs.C153_whole",
    "Verif.Seqs.C153_whole_partial",
    "Verif.Seqs.C153_counterexample"
   ],
   "note": "**C153, partial.** It holds when the elements and the required sum are whole numbers. Missing: fractions. C153_counterexample: the claim fails: for 0.25, 1.0 and the required sum 1.5 the result is 1, though no subarray has this sum. Whole numbers are handled as by the integer version."
  },
  {
   "property": "C154",
   "status": "partial",
   "theorems": [
    "Verif.UnionFind.C154_strong_partial",
    "Verif.UnionFind.C154_history_partial",
    "Verif.UnionFind.C154_leftover",
    "Verif.UnionFind.C154_counterexample_find",
    "Verif.UnionFind.C154_counterexample",
    "Verif.UnionFind.C154_counterexample_resize"
   ],
   "note": "**C154, partial.** `insert` has no effect when the look-up or the new map entry throws; `resize` has none when the first vector throws. Missing: the other points. C154_counterexample_find: What remains is dangerous: the next `find_by_elem` of the element reads beyond the end of `_items`. C154_counterexample: the claim fails: the insertion of 20 throws; when 30 is inserted afterwards, 20 and 30 are in the same set although nothing was joined, and the set has one element. The claim fails for `insert` at the other points, for every element that is new: it is then in the map but has no item."
  },
  {
   "property": "C155",
   "status": "partial",
   "theorems": [
    "Verif.Avl.C155_basic_partial",
    "Verif.Avl.C155_insert_partial",
    "Verif.Avl.C155_remove_partial",
    "Verif.Avl.C155_contains",
    "Verif.Avl.C155_counterexample",
    "Verif.Avl.C155_counterexample_remove",
    "Verif.Avl.C155_counterexample_insert"
   ],
   "note": "**C155, partial.** What always holds, whatever throws: the tree stays sorted, `size()` stays the number of its elements, every call that does not throw does what it promises on what the former calls left behind, and a call that throws leaves the contents as they were, or (`insert`) with the new value, or (`remove`) with the removed value replaced by a second copy of a greater one. Missing: that it leaves the contents as they were. **C155, partial.** Unless the comparison of `rotate_if_needed` throws (binary_tree.h:793, 801), an `insert` that throws leaves the whole tree as it was. Missing: that comparison, which comes after the insertion. **C155, partial.** In a tree without duplicates, when only the copy and the assignment of the successor throw (binary_tree.h:905), a `remove` that throws leaves the whole tree as it was. Missing: comparisons and the second copy (binary_tree.h:906), which come after the value was replaced. C155_counterexample: **C155, counterexample:** the claim fails for `remove`: from the set 1, 2, 3 the removal of 2 throws when 3 is compared with itself; the tree then contains 3 twice, though duplicates are not allowed, and 2 not at all. C155_counterexample_remove: The set after that: 1, 3, 3. `contains` that throws has no effect; when it does not throw it is `contains`."
  },
  {
   "property": "C156",
   "status": "partial",
   "theorems": [
    "Verif.Seqs.C156_arithmetic_partial",
    "Verif.Seqs.C156_int_partial",
    "Verif.Seqs.C156_counterexample",
    "Verif.Seqs.C156_defined",
    "Verif.Seqs.C156_exact"
   ],
   "note": "**C156, partial.** Nothing overflows if also the distances of the elements from the first one fit the wider type. Missing: 64 bit progressions that span more than half the range. For `int`: the products are computed in 64 bits, so nothing overflows. C156_counterexample: **C156, counterexample:** the claim fails for 64 bit integers: the distance of the fourth element from the first one does not fit. For every sequence whatsoever and every width, a 64 bit search that is defined gives the answer that it gives without bounds: an overflow is never silent. Exactly: when all elements of the progression fit the type and an inner element is missing, the search is undefined iff it looks, before it meets the missing position, at a position that is beyond the end or whose distance from the first element does not fit the wider type (otherwise see `C156_defined` and `C156_int_partial`)."
  },
  {
   "property": "C157",
   "status": "partial",
   "theorems": [
    "Verif.Seqs.C157_geometric_partial",
    "Verif.Seqs.C157_sound",
    "Verif.Seqs.C157_counterexample",
    "Verif.Seqs.C157_counterexample_conversion"
   ],
   "note": "**C157, partial.** It holds when all elements are below 2^53 in absolute value, in particular always for `int`. Missing: greater elements, which a double need not represent. C157_counterexample: **C157, counterexample:** the claim fails: the doubles for `2^53 + 1` and its multiples are others, so that the search turns to the wrong side and does not find the element it finds without rounding. C157_counterexample_conversion: **C157, counterexample:** for the greatest 64 bit integer and the factor -1 the double is `2^63`, whose conversion back is undefined. (and C68 with bounds): whatever `std::pow` returns, and whatever the type, a value that is reported is the missing one."
  },
  {
   "property": "C158",
   "status": "partial",
   "theorems": [
    "Verif.NMem.C158_basic_partial",
    "Verif.NMem.C158_strong_partial",
    "Verif.NMem.C158_leak",
    "Verif.NMem.C158_parent_partial",
    "Verif.NMem.C158_counterexample",
    "Verif.NMem.C158_counterexample_first_null",
    "Verif.NMem.C158_counterexample_root",
    "Verif.NMem.C158_counterexample_replace",
    "Verif.NMem.C158_counterexample_copy",
    "Verif.NMem.C158_counterexample_copy_slots",
    "Verif.NMem.C158_counterexample_assign_parent",
    "Verif.NMem.C158_counterexample_move_parent",
    "Verif.NMem.C158_counterexample_insert",
    "Verif.NMem.C158_counterexample_swap",
    "Verif.NMem.C158_counterexample_assign",
    "Verif.NMem.C158_counterexample_tree",
    "Verif.NMem.C158_full_without_children"
   ],
   "note": "Whatever throws, the program can go on: if the statements that do not throw are those of C129, the program runs to its end without UB, every pointer leads to an allocated node, and no node is reachable in two ways. Moreover the results are those of the same program over immutable values with the same exceptions, if the statements that do not throw are those of C130, and the contents are those of `nrunTSpec`. Missing: the copies of C129 and C130. The part that holds: these statements have no effect when they throw, in any state of any program: `add_child` and `insert_at_first_null` when the node cannot be made, `insert_at` within the slots, `insert_at` and `replace_at` when the vector cannot grow, `set_value`, `swap` when the first copy throws, and the assignment of trees when the node cannot be made. Missing: all other statements and points (see the counterexamples). Parents: `parent()` is right as in C131, if the statements that do not throw are those of C131 and the nodes of an assignment that throws have the same parent (or both none). C158_counterexample: the claim fails: `add_child` leaks the new node when `push_back` throws. C158_counterexample_first_null: the claim fails: the same in `insert_at_first_null`. What is lost: for the programs of C129 with any exceptions, something is lost at the end if and only if a statement lost it as in C132, or a vector could not grow after the new node was made, or a copy of a tree threw after its root was made: always in a constructor, and otherwise if the target had a root. The consequence of the null slots: after an `insert_at` at the last position that threw, `add_child` is refused, though the node has no child."
  },
  {
   "property": "C159",
   "status": "partial",
   "theorems": [
    "Verif.Mem.C159_basic_partial",
    "Verif.Mem.C159_points",
    "Verif.Mem.C159_same_copy",
    "Verif.Mem.C159_strong_partial",
    "Verif.Mem.C159_leak",
    "Verif.Mem.C159_parent_partial",
    "Verif.Mem.C159_counterexample",
    "Verif.Mem.C159_counterexample_constructor",
    "Verif.Mem.C159_counterexample_assign_children",
    "Verif.Mem.C159_counterexample_assign",
    "Verif.Mem.C159_counterexample_move",
    "Verif.Mem.C159_counterexample_tree",
    "Verif.Mem.C159_counterexample_swap",
    "Verif.Mem.C159_null_parent"
   ],
   "note": "Whatever throws, the program can go on: without the assignments of `C122_undefined_iff`, it runs to its end without UB, every pointer in a tree leads to an allocated node, and no node is reachable in two ways. If moreover the assignments are those of C123, then the same statements throw as in the program over immutable values, with the same results otherwise, and the contents are those of `brunTSpec`: in particular the parts of a copy that `partNode` describes. Missing: the assignments of C122 and C123. The part that holds: `add_left`, `add_right`, `set_value`, `swap` except at its last copy, and the copy of a tree when its root cannot be made have no effect when they throw, in any state of any program. Missing: the other statements and points (see the counterexamples). Parents: `parent()` is right as in C124, if the assignments that do not throw are those of C124, and those that throw do so in an operation on the node itself, not within the copy of a child. Missing: exceptions within the copy of a child (`C159_null_parent`), and the assignments of C124. C159_counterexample: the claim fails: `add_root` has deleted the tree when the new root cannot be made. C159_counterexample_constructor: the claim fails: the copy constructor of a tree leaks its root, when the copy of the value throws. When a copy throws: the assignment of a node throws if and only if one of its `2 * m - 1` operations does, for a subtree of `m` nodes: a `new` for each node but the first, and an assignment of a value for each. The copy of a tree has one more, the `new` of the root. The copy with exceptions is the one of C122 as long as nothing throws. What is lost: for the programs of C122 with any exceptions, something is lost at the end if and only if a statement lost it as in C125, or a copy of a tree threw after its root was made: always in a constructor, and otherwise if the target had a root. An exception within the copy of a child leaves a child whose `parent()` throws."
  },
  {
   "property": "C160",
   "status": "partial",
   "theorems": [
    "Verif.Seg.C160_query_partial",
    "Verif.Seg.C160_history_partial",
    "Verif.Seg.C160_repair",
    "Verif.Seg.C160_counterexample_update",
    "Verif.Seg.C160_counterexample_rebuild",
    "Verif.Seg.C160_not",
    "Verif.Seg.C160_keepVal_needed",
    "Verif.Seg.C160_first_build",
    "Verif.Seg.C160_same_build",
    "Verif.Seg.C160_rebuild",
    "Verif.Seg.C160_same",
    "Verif.Seg.C160_basic_partial"
   ],
   "note": "The part that holds for queries: a query that throws, at whatever operation, leaves every later answer as it was. The part that holds for all calls: in every history of queries and updates in which any operations throw, the elements are those of the completed updates and of a first part of each interrupted one; one-element queries return them, and so do queries of ranges in which no update was interrupted. Memory safety: for every transform whose `apply` and `propagate` keep bounds and indices (no other law), every history of calls in which any operations throw, also inside rebuilds from as many elements as the tree has, stays inside the heap. C160_counterexample_update: the claim fails for updates: adding 10 to the first of the elements 1, 2 throws in the last `join`; the elements are 11 and 2 but the query of both returns 3, so the tree represents no elements at all. C160_counterexample_rebuild: the claim fails for `rebuild`: a tree of one element is rebuilt from four and the allocation throws. `size()` is already 4 and the tree still counts as built, so the next query of all elements returns a value that was never assigned (UB). Repairing: after such a history, reading the elements at the positions where updates were interrupted makes the tree represent its elements again, whatever these are. Why `propagate` has to keep the value: without it a query that throws damages the tree. First build: if it throws the tree stays unbuilt, and queries and updates throw `heap_not_built_exception_t`. A build that completes is the build without exceptions. A `rebuild` that completes repairs a tree in whatever state exceptions left it. A query or update that completes is the call without exceptions, and with enough operations it completes."
  },
  {
   "property": "C161",
   "status": "partial",
   "theorems": [
    "Verif.Fenwick.C161_history_partial",
    "Verif.Fenwick.C161_sums",
    "Verif.Fenwick.C161_repair",
    "Verif.Fenwick.C161_counterexample_update",
    "Verif.Fenwick.C161_counterexample_retry",
    "Verif.Fenwick.C161_retry",
    "Verif.Fenwick.C161_not",
    "Verif.Fenwick.C161_same"
   ],
   "note": "The part that holds: in every history of calls on any number of trees in which operations throw anywhere, calls that complete act as on plain lists; an `update` or `set_value` that throws has done nothing, or has added its value at the position and is missing it at one later position; a query that throws has done nothing; a build or copy assignment that throws leaves some list. C161_counterexample_update: the claim fails for updates: with one successful addition, `update(1, 10)` on 1, 2, 3, 4 has changed the elements to 11, -8, 3, 4. C161_counterexample_retry: the claim fails for builds: the first build throws after one element has been added; the same build is tried again and completes, but the elements are 2, 1, 1 instead of 1, 1, 1 (`_build` clears the array only of trees that are built). What an interrupted update means for sums: with `j` the position at which the value is missing, every query of a range that holds both of `p` and `j`, or none of them, is as right as if the update had been completed or not begun. Repairing an interrupted update: there is a position at which the same value has to be added once more; then all cells are those of the completed update. The retry in general: a completed build after builds that did not complete has the right elements if it is the first that completes with more elements than any before it, or if the object was built; otherwise the remains are added. The calls that complete are those without exceptions, and with enough operations every call completes."
  },
  {
   "property": "C162",
   "status": "partial",
   "theorems": [
    "Verif.ThreadThrow.C162_failed_partial",
    "Verif.ThreadThrow.C162_not",
    "Verif.ThreadThrow.C162_counterexample_lost",
    "Verif.ThreadThrow.C162_forever",
    "Verif.ThreadThrow.C162_derived",
    "Verif.ThreadThrow.C162_retry",
    "Verif.ThreadThrow.C162_run_throws",
    "Verif.ThreadThrow.C162_same"
   ],
   "note": "The part that holds: a `start` that throws leaves everything as it would be without the call, except the exit code: this is NOT_FINISHED, unless the thread of an earlier start stores its result during the call. Missing: the exit code. C162_counterexample_lost: the claim fails: a thread has returned 7 and was joined; another `start` throws; the 7 is lost. The claim fails: after a first `start` that throws, the exit code is NOT_FINISHED instead of NOT_STARTED. Waiting for a thread that could not be started: as long as nobody calls `start` again, `is_running` answers true, whatever happens; so does `is_running` of a message queue, which is at least that of its thread (message_queue.h:105-108), so a loop that waits for the end does not end. In derived classes: with its own flag false, as before the first `run` and after every one, a timer that could not be started is not running, but a message queue is said to run. Starting again: after any number of failed starts, if a start succeeds, the thread's `run` returns `v` and the thread is joined, then the exit code is `v`. Exceptions of `run`: the program is terminated; nobody can catch the exception, and nothing happens after it. Nothing else changes: a history without failures is one of `Verif/Conc/Thread.lean`, to which C100, C111 and C112 apply."
  },
  {
   "property": "C163",
   "status": "partial",
   "theorems": [
    "Verif.Avl.C163_any_partial",
    "Verif.Avl.C163_nan_partial",
    "Verif.Avl.C163_same",
    "Verif.Avl.C163_linear",
    "Verif.Avl.C163_numbers",
    "Verif.Avl.C163_counterexample_remove",
    "Verif.Avl.C163_counterexample_refused",
    "Verif.Avl.C163_counterexample_other",
    "Verif.Avl.C163_counterexample_replaced",
    "Verif.Avl.C163_counterexample_lost",
    "Verif.Avl.C163_not"
   ],
   "note": "Whatever the comparisons answer, every history of calls terminates without undefined behaviour, what each call reports is what it did to the number of elements, no element appears that was not inserted, `size()` is the number of elements modulo 2^64 and the stored heights are exact. What is missing for the full statement `Truthful` is false (`C163_not`). Floating point numbers without duplicates: the tree always holds a set of numbers or a single NaN, and every call does and returns what `Call` says. A NaN is refused by a non-empty tree though not contained, a tree that holds NaN refuses everything, `remove(NaN)` takes some number from the tree and reports `true`, `remove_all(NaN)` empties the tree, and any `remove` on a tree that holds NaN takes the NaN. `contains` finds exactly the numbers and never NaN. C163_counterexample_remove: `remove(NaN)` takes 1 from the tree {1} and reports success. C163_counterexample_refused: A tree that holds NaN refuses 1, which it does not contain. A linear order given by its comparisons: the same behaviour as in the model of C1 and its neighbours. The full statement holds for linear orders. As long as no NaN is passed, with or without duplicates, floating point numbers behave as a linear order. The full statement is false for floating point numbers."
  },
  {
   "property": "C164",
   "status": "partial",
   "theorems": [
    "Verif.Cache.Unequal.C164_partial",
    "Verif.Cache.Unequal.C164_size",
    "Verif.Cache.Unequal.C164_reflexive",
    "Verif.Cache.Unequal.C164_same",
    "Verif.Cache.Unequal.C164_counterexample_access",
    "Verif.Cache.Unequal.C164_not",
    "Verif.Cache.Unequal.C164_unbounded"
   ],
   "note": "Every history of calls behaves as the recency list in which a key counts as held if an equal key is: the same outputs, keys, discards and flags, and undefined behaviour exactly for `operator[]` of an absent key when the capacity is 0 or the key is unequal to itself. The map also keeps an entry for every key unequal to itself that was added since the last `clear`, also after it was discarded. What is missing for the full statement `Faithful` is false (`C164_not`). C164_counterexample_access: `cache[NaN]` dereferences a singular iterator. `size()` never exceeds the capacity, whatever keys are used. The full statement holds if every key is equal to itself. If equality is identity, the specification is that of C21. The full statement is false for floating point keys. The map grows without bound: after `n` calls of `add(NaN)` on a cache of capacity 1 it has `n` entries."
  },
  {
   "property": "C165",
   "status": "partial",
   "theorems": [
    "Verif.RandomDouble.C165_in_range_partial",
    "Verif.RandomDouble.C165_total",
    "Verif.RandomDouble.C165_start",
    "Verif.RandomDouble.C165_end",
    "Verif.RandomDouble.C165_counterexample"
   ],
   "note": "Where the distribution is defined (`start <= end`, and the width is at most the greatest double) the result lies between the arguments, both inclusive, in spite of the roundings. For greater widths the full statement is false (`C165_counterexample`). C165_counterexample: The distribution is undefined for wider ranges: `next_random_double(-max, max)`. There is a result for all arguments and outputs of the generator. `start` is a possible result. `end` is a possible result, although the distribution promises numbers below it: the sum is rounded."
  },
  {
   "property": "C166",
   "status": "partial",
   "theorems": [
    "Verif.Interval.C166_exact_partial",
    "Verif.Interval.C166_otherwise",
    "Verif.Interval.C166_century",
    "Verif.Interval.C166_integer",
    "Verif.Interval.C166_negative",
    "Verif.Interval.C166_floating",
    "Verif.Interval.C166_floating_bounds",
    "Verif.Interval.C166_counterexample_greatest",
    "Verif.Interval.C166_counterexample_overflow",
    "Verif.Interval.C166_not"
   ],
   "note": "A wait ends exactly when asked for if and only if that moment is one that the clock can show. What is missing for the full statement is false (`C166_not`). C166_counterexample_greatest: The greatest interval does not wait at all. C166_counterexample_overflow: `std::chrono::milliseconds::max()` overflows. Otherwise a wait is undefined, or it ends at once: this happens to the greatest 9223372036854 intervals. For a century of uptime and intervals up to a century everything is exact. Numbers of an integer type that are not negative reach the timer as given. With a negative interval (`timer_t t{-1, f}` meant to last for ever) every wait ends at once. Floating point intervals are truncated to milliseconds. A time-out of half a millisecond is none; a negative one is undefined. The full statement is false."
  },
  {
   "property": "C167",
   "status": "partial",
   "theorems": [
    "Verif.Seqs.C167_same",
    "Verif.Seqs.C167_linear_partial",
    "Verif.Seqs.C167_floating",
    "Verif.Seqs.C167_counterexample_arithmetic",
    "Verif.Seqs.C167_counterexample_geometric",
    "Verif.Seqs.C167_not"
   ],
   "note": "The searches over integers never take more iterations than there are elements. A logarithmic bound does not hold for them (`C167_not`). C167_counterexample_arithmetic: The arithmetic search for the twelfth element, in a sequence of any power of two from 32 on, takes as many iterations as there are elements, and then reports an invalid sequence. C167_counterexample_geometric: The same for the geometric search over integers and the 48th element, from 128 elements on. The counting functions compute what the functions of Model.lean compute. The search over floating point numbers takes three iterations at most: it always turns right, and leaves the sequence. The full statement is false, for both searches over integers."
  },
  {
   "property": "C168",
   "status": "proved",
   "theorems": [
    "Verif.Seqs.C168_same",
    "Verif.Seqs.C168_calls",
    "Verif.Seqs.C168_bound",
    "Verif.Seqs.C168_shared",
    "Verif.Seqs.C168_subarray"
   ],
   "note": "The counting function computes what the function of Model.lean computes. Every call that is not answered from the memo makes one entry, so that no sum is computed twice for the same position: the number of calls is one more than twice the number of new entries. `sum_of_subsets` is defined, and counts the subsets with at most `1 + 2 n (s + 1)` calls, whichever operand is evaluated first. Calls that share a memo share the work: together they make one call each, and two for each entry of the memo. `max_length_of_sum` stores at most one sum for each element."
  },
  {
   "property": "C169",
   "status": "proved",
   "theorems": [
    "Verif.Fenwick.C169_same",
    "Verif.Fenwick.C169_update",
    "Verif.Fenwick.C169_prefix",
    "Verif.Fenwick.C169_calls",
    "Verif.Fenwick.C169_build",
    "Verif.Fenwick.C169_build_least",
    "Verif.Fenwick.C169_query",
    "Verif.Fenwick.C169_set_value",
    "Verif.Fenwick.C169_tight",
    "Verif.Fenwick.C169_digits"
   ],
   "note": "The counting functions compute what the functions of Model.lean compute. `_update` visits no more cells than the greatest index has binary digits. A prefix query reads exactly as many cells as its position has ones. On an array of `n + 1 \u2264 2^64` cells, `update` visits no more cells than `n` has binary digits (`log2 n + 1`, and none if `n` is 0), `query` no more than two each, and `set_value` three. Building a tree of `n` elements from scratch visits at most `n` cells for every binary digit of `n`. It visits at least one for every element. A query of `[p, q]` reads exactly as many cells as `p - 1` and `q` together have ones. `set_value` visits the cells of a query of its position and, unless there is nothing to change, those of an update. An update of the first element visits all powers of two: as many cells as the bound says, whatever the size. `digits` is the logarithm."
  },
  {
   "property": "C170",
   "status": "partial",
   "theorems": [
    "Verif.Seg.C170_same",
    "Verif.Seg.C170_bounds_partial",
    "Verif.Seg.C170_fresh",
    "Verif.Seg.C170_counterexample",
    "Verif.Seg.C170_not"
   ],
   "note": "After every history of calls, `query_update` visits `O(log n)` nodes if `criteria` accepts every node (the default), and so does `query` if updates are never pending (as for the library's own transform); in any case a call visits at most `2 n - 1` nodes and at most `2 log2 n` more than twice the length of its interval. Missing: queries below pending updates (`C170_counterexample`). C170_counterexample: after a tree of `n` elements was built and one update applied to all of them (which visits one node), a query of all of them visits all `2 n - 1` nodes. The counting functions compute what `query` and `query_update` of Model.lean compute. After a tree was built, queries visit `O(log n)` nodes until the first update. Does not hold: on 8 elements the query visits 15 nodes instead of 9."
  },
  {
   "property": "C171",
   "status": "partial",
   "theorems": [
    "Verif.Avl.C171_same",
    "Verif.Avl.C171_depth_partial",
    "Verif.Avl.C171_insertions_partial",
    "Verif.Avl.C171_counterexample",
    "Verif.Avl.C171_not",
    "Verif.Avl.C171_exact",
    "Verif.Avl.C171_duplicates"
   ],
   "note": "After every history of calls, `contains` and `insert` visit at most as many nodes as the tree is deep, and `remove` and each round of `remove_all` at most `d (d + 1) / 2` for the depth `d`, or `2 d - 1` if duplicates were never allowed. Missing: that the depth is logarithmic, which fails (`C171_counterexample`). After insertions only, and with duplicates disabled, all calls are logarithmic. C171_counterexample: the claim fails as badly as possible: for every `m` there is a history of insertions and removals after which the tree has `m + 8` elements and every call with a value of at least `21 m` visits `m` nodes or more. The counting functions compute what the functions of Model.lean compute. The exact numbers. `contains` and `insert` visit the nodes on the way to the value, `remove` these and possibly more; `remove_all` visits the nodes of as many calls of `remove` as succeed and of the one that fails. With duplicates `2 d - 1` is too little: of 20 equal values, in a tree of depth 6, `remove` visits 19 nodes to remove one, because it searches the least element again at each level of the right subtrees. Five equal values meet the bound `d (d + 1) / 2`."
  },
  {
   "property": "C172",
   "status": "partial",
   "theorems": [
    "Verif.Seqs.C172_same",
    "Verif.Seqs.C172_linear_partial",
    "Verif.Seqs.C172_counterexample",
    "Verif.Seqs.C172_not"
   ],
   "note": "What holds: the exact numbers of steps of the searches by XOR and of `max_sum_of` with any iterators, and of `max_length_of_sum` with random access iterators, and at most three calls of the hash map for each element. C172_counterexample: With iterators that can only be incremented, `max_length_of_sum` takes exactly `n + n (n + 1) / 2` steps for `n` elements, whatever they are: for each element it measures the distance from the first one anew. The counting functions compute what the functions of Model.lean compute. The claim fails."
  },
  {
   "property": "C173",
   "status": "proved",
   "theorems": [
    "Verif.Tools.C173_same",
    "Verif.Tools.C173_lame",
    "Verif.Tools.C173_gcd_log",
    "Verif.Tools.C173_gcd",
    "Verif.Tools.C173_gcd_tight",
    "Verif.Tools.C173_divisors"
   ],
   "note": "The counting functions compute what the functions of Model.lean compute. With `n + 2` calls the second number is at least the Fibonacci number `n + 2`, whichever number is greater. `gcd` makes at most `2 log2 b + 3` calls. For 64 bit numbers `gcd` makes at most 93 calls. Both bounds are reached: the calls for consecutive Fibonacci numbers, and two 64 bit numbers that need 93. `divisors_of` takes `\u221an` rounds, or one less, and never more than 2^32 - 1; it returns at most two divisors for each."
  },
  {
   "property": "C174",
   "status": "partial",
   "theorems": [
    "Verif.Command.C174_partial",
    "Verif.Command.C174_exact",
    "Verif.Command.C174_counterexample",
    "Verif.Command.C174_counterexample_leak"
   ],
   "note": "**C174, partial.** A program that copies managers only while they are empty is defined. At its end each stored command was deleted exactly once, except those of managers that were assigned over, which are never deleted; without assignments there are none. Missing: copies of managers that hold commands (`C174_exact`). C174_counterexample: **C174, counterexample:** the claim fails: a manager with one command is copied, and both delete it. C174_counterexample_leak: **C174, counterexample:** the claim also fails for assignments from empty managers: the command that the target held is never deleted. **C174, exactly, without assignments:** a program is UB if and only if at some time it copies a manager that holds a command."
  },
  {
   "property": "C175",
   "status": "partial",
   "theorems": [
    "Verif.MsgQueue.C175_partial",
    "Verif.MsgQueue.C175_wakes",
    "Verif.MsgQueue.C175_counterexample",
    "Verif.MsgQueue.C175_stuck",
    "Verif.MsgQueue.C175_stop_ignored",
    "Verif.MsgQueue.C175_counterexample_stop",
    "Verif.MsgQueue.C175_stop_timeout"
   ],
   "note": "**C175, partial.** When the calls that inserted the messages have returned, the sleeping worker was notified, unless a notification came in the moment between its look at the container and its falling asleep. Missing: that moment (`C175_counterexample`). C175_counterexample: **C175, counterexample:** the message waits for the end of the 100 ms. C175_counterexample_stop: **C175, counterexample:** the notification of `stop` has no effect on an idle queue: the predicate of the wait does not look at `_stopped`. **C175:** a notified worker goes on at once: two steps later it has left the wait because of the message. **C175:** a worker that is blocked and was not notified can only go on at the end of the 100 ms (or by a spurious wake-up). **C175:** neither `stop` nor `discard_messages` wakes a worker that waits for messages: whatever is called and whoever is notified, without a new message and without the end of the 100 ms the worker stays where it is. **C175:** one end of the 100 ms suffices: after `stop`, an idle worker that has nothing to discard then ends by its own steps."
  },
  {
   "property": "C176",
   "status": "partial",
   "theorems": [
    "Verif.MsgQueue.C176_partial",
    "Verif.MsgQueue.C176_fails",
    "Verif.MsgQueue.C176_terminates",
    "Verif.MsgQueue.C176_counterexample",
    "Verif.MsgQueue.C176_counterexample_late"
   ],
   "note": "**C176, partial.** Whatever calls of `receive_message` throw, the queue is in a state that it reaches without the calls that threw before the insertion, and with those that threw after it; so everything proved about the container, the order of the messages and the callbacks remains true. A client whose call threw is not involved any more, and the mutex is free again. Missing: exceptions on the worker (`C176_counterexample`, `C176_terminates`). C176_counterexample: **C176, counterexample:** the claim fails: `on_start` throws. C176_counterexample_late: **C176, counterexample:** a call that throws because of a comparison delivers its message all the same. **C176:** a call that throws before the insertion: two steps after the client got the mutex free, the container and the log are as before and the mutex is free. **C176:** an exception on the worker ends the program, wherever it is thrown."
  },
  {
   "property": "C177",
   "status": "partial",
   "theorems": [
    "Verif.Sem.C177_partial",
    "Verif.Sem.C177_served",
    "Verif.Sem.C177_counterexample"
   ],
   "note": "**C177, partial.** The claim when every call of `set_available_resources` adds at most one resource. Missing: larger additions, for which it is false (`C177_counterexample`). C177_counterexample: **C177, counterexample:** two resources are added at once, one of the two waiting threads is notified; the other one sleeps beside a free resource, and nobody is coming. **C177:** so a thread is not left alone: while a resource is free, some thread acquires one without any time-out."
  },
  {
   "property": "C178",
   "status": "partial",
   "theorems": [
    "Verif.Timer.C178_partial",
    "Verif.Timer.C178_stops",
    "Verif.Timer.C178_counterexample",
    "Verif.Timer.C178_counterexample_wake",
    "Verif.Timer.C178_wake_partial",
    "Verif.Timer.C178_again"
   ],
   "note": "**C178, partial** (first half). The program is ended exactly by the exceptions that leave the thread or a destructor: while there is none the program goes on, and everything that `TimerProps` proves of the timer's states holds. Missing: those exceptions (`C178_counterexample`). **C178, partial** (second half): the exception changes nothing for the thread: it sleeps on if and only if it slept and had not been notified before. Missing: the notification (`C178_counterexample_wake`). C178_counterexample: **C178, counterexample:** `on_interval` throws. C178_counterexample_wake: **C178, counterexample** (second half): the exception skips the notification; the thread of the stopped timer sleeps on for an hour. **C178:** a `stop` that has cleared the flag is in force, even if `on_stop` throws then (or throws in later calls of `stop`): the flag stays cleared, `on_interval` is called at most once more, and the thread can run to its end by itself. **C178:** the way out: to call `stop` once more, if `on_stop` does not throw then."
  },
  {
   "property": "C179",
   "status": "proved",
   "theorems": [
    "Verif.MsgQueue.C179_bounded",
    "Verif.MsgQueue.C179_never_stuck",
    "Verif.MsgQueue.C179_ends",
    "Verif.MsgQueue.C179_starved"
   ],
   "note": "**C179:** after `stop`, the worker takes only boundedly many steps, under every schedule: at most 15, and 8 for each message in the container or still to be received, one for each wake-up without a message and 15 for each further `start()`. **C179:** the worker of a started queue is never stuck: before its end it can always take a step of its own or its time-out is coming, unless a client holds the mutex, and that client can take a step. **C179:** so the worker comes to its end by its own steps and time-outs alone; it needs at most `15 + 8 * n` of them for `n` messages in the container. Why the messages still to come must be counted: a client that inserts often enough keeps a stopped worker busy for ever; after `n` messages it is still where it was."
  },
  {
   "property": "C180",
   "status": "proved",
   "theorems": [
    "Verif.UnionFind.C180_find"
   ],
   "note": "`find(x)` on an existing set. With compression every set on the walk from `x` becomes a direct child of the root that is returned, and all other parent cells keep their value; every later `find` of a set of that walk makes at most one recursive call and returns the same root. Without compression the object does not change at all."
  },
  {
   "property": "C181",
   "status": "proved",
   "theorems": [
    "Verif.Timer.C181_bounded",
    "Verif.Timer.C181_never_stuck",
    "Verif.Timer.C181_ends",
    "Verif.Timer.C181_tight"
   ],
   "note": "**C181:** once a `stop` has taken effect, the thread takes at most 14 further steps before the next `start()`, whatever the other threads, the clocks and the callbacks do; it falls asleep at most once more, and not at all unless it had passed the test of the loop (line 132) already. **C181:** before its end the thread of a reachable timer can always go on by itself, or it is asleep (then it may be woken at any moment, and time-out comes as soon as the clock has passed its deadline), or the user's `on_interval` is being executed, or the destructor of the timer holds the mutex, and that destructor can go on. **C181:** so it comes to its end by its own steps, the returns of its callbacks and the passing of time alone. The bounds are reached: `stop` clears the flag between lines 135 and 136, and the thread takes 14 more steps; `stop` clears it between lines 132 and 133, and the thread falls asleep once more."
  },
  {
   "property": "C182",
   "status": "partial",
   "theorems": [
    "Verif.AvlPar.C182_links",
    "Verif.AvlPar.C182_present_partial",
    "Verif.AvlPar.C182_counterexample"
   ],
   "note": "No call but a removal makes a link to a deleted node, and a removal does not if the tree was balanced; so there are none after histories without removals (with or without duplicates), nor after the first removal from a tree without duplicates. Missing: removals from trees that earlier removals (C35) or duplicates (C36) have put out of balance, see `C182_counterexample`. C182_counterexample: the claim is false, even without duplicates: at the end 14 hangs left, right, left, right of the root, and its stored parent is node 20, which held 16 and was deleted when 16 was removed; `parent()` of this node answers freed memory. Exactly which links there are: after every history, a stored parent that is a node of the tree at all is an ancestor from which the way down is one step and then only steps to the other side; with one step only it is the real parent. All other stored parents are nodes that were deleted."
  },
  {
   "property": "C183",
   "status": "partial",
   "theorems": [
    "Verif.Avl.C183_counterexample_linear",
    "Verif.Avl.C183_counterexample",
    "Verif.Avl.C183_copies_partial"
   ],
   "note": "The part that holds: copies made after the last insertion are as deep as the original, so logarithmic. Missing: insertions into copies. C183_counterexample_linear: the claim fails as badly as possible: for every `m` there is a program of `2m + 4` insertions with `m` copies after which the tree has `2m + 4` elements, all different, and is deeper than half their number. C183_counterexample: the claim fails for every constant."
  },
  {
   "property": "C184",
   "status": "partial",
   "theorems": [
    "Verif.UnionFind.Unequal.C184_partial",
    "Verif.UnionFind.Unequal.C184_reflexive",
    "Verif.UnionFind.Unequal.C184_lost",
    "Verif.UnionFind.Unequal.C184_counterexample"
   ],
   "note": "Every history of calls by element is defined and gives the results that C18 describes for the history in which each element is replaced by its value, and an element that is not equal to itself by a different new element in each call that mentions it. What is missing for the full statement `C184_statement` is false (`C184_counterexample`). C184_counterexample: the claim is false for floating point elements: NaN does not exist after its insertion. The full statement holds if every element is equal to itself (and `==` is symmetric and transitive). An element that is not equal to itself never exists, however often it is inserted: every insertion makes a new set, and no other call can refer to it."
  },
  {
   "property": "C185",
   "status": "partial",
   "theorems": [
    "Verif.Sem.C185_counterexample",
    "Verif.Sem.C185_partial",
    "Verif.Sem.C185_served"
   ],
   "note": "The part that holds: nobody overtakes without asking. From any state on, a thread is given at most as many resources as it calls `lock` or `try_lock`, and one more when it is in such a call at the beginning; so a thread in `lock` is overtaken, by every other thread, at most once plus once for each further call of that thread. Missing: a bound on these calls. C185_counterexample: **C185, counterexample:** one resource and two threads; whenever thread 1 releases the resource it wakes up thread 2, and takes the resource back before thread 2 has the mutex. This can go on for any number of turns. **C185, the last check counts:** a thread that has the mutex and has found a free resource is not overtaken any more, whatever the other threads do; it keeps its place until it has returned from `lock`."
  },
  {
   "property": "C186",
   "status": "proved",
   "theorems": [
    "Verif.UnionFind.C186_amortised",
    "Verif.UnionFind.C186_calls",
    "Verif.UnionFind.C186_elements",
    "Verif.UnionFind.C186_constant"
   ],
   "note": "**C186:** with path compression, which is the default, any history of `m` calls of `find`, `same`, `join`, `size_of` and `resize` on a `union_set_t` that ends with `n` sets activates `_find` at most `m \u00b7 (2 \u00b7 log* n + 6) + n \u00b7 (log* n + 1)` times. What is counted: `_find(x)` returns exactly if it may nest as many activations as are counted. For `union_find_t<T, true>` and calls with elements; the time of the hash map is not counted. The iterated logarithm of everything that fits a `size_t` is at most four: a call activates `_find` 14 times at most, on the average, and five more times for each element."
  },
  {
   "property": "C187",
   "status": "partial",
   "theorems": [
    "Verif.Heap.C187_counterexample",
    "Verif.Heap.C187_counterexample_large",
    "Verif.Heap.C187_exact",
    "Verif.Heap.C187_partial",
    "Verif.Heap.C187_siblings"
   ],
   "note": "Right for the positions below `2^47` that are not the leftmost ones of their levels. Missing: the others. C187_counterexample: counterexample: the call for the root is undefined. C187_counterexample_large: counterexample for large positions: `2^51 - 2` lies on level 51, whether positions are counted from 0 or from 1, but the logarithm is rounded up and `height_of` gives 52. Exactly, below `2^47`: `height_of` gives the level of the position before, as if positions were counted from 1. This is the level of the position itself if and only if it is not the leftmost one of its level; siblings at the left edge differ. The children of the root: levels 2 and 2, `height_of` gives 1 and 2."
  },
  {
   "property": "C188",
   "status": "partial",
   "theorems": [
    "Verif.Heap.C188_counterexample_cut",
    "Verif.Heap.C188_counterexample_swap",
    "Verif.Heap.C188_counterexample",
    "Verif.Heap.C188_exact",
    "Verif.Heap.C188_partial"
   ],
   "note": "Nothing happens when a call throws at its first operation, such as the growth of the vector, or because of its arguments, provided that the positions are those of a heap that fits into memory. Missing: exceptions of later moves, and positions of a quarter of the address space or more. C188_counterexample_cut: counterexample: `set_left(2^62, 9)` cuts a heap of six elements down to four and throws `std::out_of_range`. C188_counterexample_swap: counterexample: when the second move of a `swap` throws, an element is lost. Exactly: what each call does to the elements, for every number `k` of operations that succeed."
  },
  {
   "property": "C189",
   "status": "partial",
   "theorems": [
    "Verif.Heap.C189_counterexample",
    "Verif.Heap.C189_counterexample_self",
    "Verif.Heap.C189_exact",
    "Verif.Heap.C189_partial"
   ],
   "note": "With enough capacity, and elements that survive a move to themselves, the child holds the value that the argument had. Missing: the growth beyond the capacity. C189_counterexample: counterexample: the vector grows, and the reference to the root dangles. C189_counterexample_self: counterexample: a child that is assigned to itself is lost, if a move to itself loses an element. Exactly, for the child position `c` of `set_left` and `set_right` (and for 0 of `set_root`), an element `v` at `q`, and no exceptions of the elements. If the vector has to move to new memory, the call is undefined. Otherwise it does what it does for any other value, except that the element at `q` is moved from, which is the new child itself if `q = c`."
  },
  {
   "property": "C190",
   "status": "partial",
   "theorems": [
    "Verif.Heap.C190_counterexample",
    "Verif.Heap.C190_exact",
    "Verif.Heap.C190_partial"
   ],
   "note": "On a heap with elements. Missing: the empty heap. C190_counterexample: counterexample: only the `head()` of a heap that is not `const` is checked. Exactly: the `head()` of a heap that is not `const` is always defined; the others are if and only if there are elements. Then they are the first and the last element; the first one is at the root."
  },
  {
   "property": "C191",
   "status": "partial",
   "theorems": [
    "Verif.Fenwick.C191_error_partial",
    "Verif.Fenwick.C191_counterexample",
    "Verif.Fenwick.C191_counterexample_set",
    "Verif.Fenwick.C191_counterexample_overflow",
    "Verif.Fenwick.C191_exact_partial",
    "Verif.Fenwick.C191_whole_partial"
   ],
   "note": "How wrong a rounded sum can be: after the construction from `n` finite doubles and any number of `update`s, the result of every query differs from the exact sum by at most `2 ((1 + 2^-53)^k - 1)` times the sum of the magnitudes of all numbers that went into the tree, where `k` is the number of elements and updates plus the number of binary digits of `n` plus 1. (No sum overflows if twice that sum, grown by this factor, is within the range of `double`.) Missing for C191: the results are not the exact ones, and `set_value`. The part that holds: as long as all sums of neighbouring elements are doubles and so are the differences of the old and new elements of `set_value`, every history of calls returns what it returns on plain lists with exact arithmetic. Missing: everything that is rounded. For whole numbers (or whole multiples of any power of two): as long as the magnitudes of the elements of a tree add up to at most `2^52`, every history of calls returns what it returns on plain lists. C191_counterexample: the claim fails: behind the element `2^53` (in any unit) the element 1 is returned as 0. C191_counterexample_set: the claim fails for `set_value` too, in a tree with one element: `2^54` is replaced by 0 instead of 1."
  },
  {
   "property": "C192",
   "status": "proved",
   "theorems": [
    "Verif.MakeUnique.C192_make_unique",
    "Verif.MakeUnique.C192_without_leaks"
   ],
   "note": "`make_unique` leaks nothing: a call whose arguments are made by it either gets one owned object per argument, or throws and leaves the memory as it was. `fate` ranges over all ways in which allocations and constructors can fail, `vs` over all argument lists in any order. Without `make_unique` the two `new` may both come before the owners: the object 10 stays in use for ever when the constructor of 20 throws."
  },
  {
   "property": "C193",
   "status": "partial",
   "theorems": [
    "Verif.Fenwick.C193_always_zero",
    "Verif.Fenwick.C193_counterexample",
    "Verif.Fenwick.C193_exact",
    "Verif.Fenwick.C193_identity_partial"
   ],
   "note": "The part that holds: it does if the default value is the identity (as for the identity matrix or permutation), provided that division undoes multiplication by every value that counts as true and only the identity counts as false. Missing: other default values, for which the claim is false (`C193_counterexample`, `C193_always_zero`, `C193_exact`). C193_counterexample: the claim fails: the product of `[2, 3]` is 0. The claim fails in the worst way: if the default value is a zero (as it is for big integers, fractions and complex numbers), then every query of every tree that any history of calls can build returns zero, whatever was stored in it. Exactly as the code behaves, for any default value: each cell has the default value as an extra factor, so that the product of the first `p` elements is wrong by as many factors as `p` has ones in binary; and the default value is divided out once if it counts as true and the range starts at the first element."
  },
  {
   "property": "C194",
   "status": "partial",
   "theorems": [
    "Verif.Command.C194_once_partial",
    "Verif.Command.C194_history_partial",
    "Verif.Command.C194_ends_partial",
    "Verif.Command.C194_counterexample",
    "Verif.Command.C194_counterexample_endless"
   ],
   "note": "Safety: if neither the program nor the destructors call `undo`, nothing is undefined and no command is deleted twice, and if the program ends, every command was deleted exactly once. Missing: `undo`, for which the claim is false (`C194_counterexample`), and that the program ends (`C194_ends_partial`, `C194_counterexample_endless`). The bound: while the program makes calls the manager keeps the newest 1024 commands (fewer only if it got fewer) between any two calls, and the older ones were deleted oldest first, also those that destructors have stored. Termination: if the destructors store only commands of a lower rank, the program ends. C194_counterexample: the claim fails for a destructor that calls `undo` while the manager holds another command: `_second` is empty and `back()` is undefined. C194_counterexample_endless: the claim fails for destructors that store new commands for ever: the destructor of the manager does not end."
  },
  {
   "property": "C195",
   "status": "partial",
   "theorems": [
    "Verif.Seg.C195_brackets_partial",
    "Verif.Seg.C195_repeat_partial",
    "Verif.Seg.C195_error_partial",
    "Verif.Seg.C195_exact",
    "Verif.Seg.C195_counterexample",
    "Verif.Seg.C195_counterexample_minus"
   ],
   "note": "For every transform and every list of queries without updates: each query returns the addressed elements, each of them once and in order, joined in some brackets, at most `\u2308log2 n\u2309` deep. A query without updates leaves the whole tree, every cell of the heap, as it was: asking again, whatever was asked in between, gives the same value bit by bit, also with a rounding `join`. Sums of `double`s: with no overflow in sight, the result of a query is finite and differs from the exact sum by at most `((1 + 2^-53)^d - 1)` times the sum of the magnitudes of the ADDRESSED elements, where `d = \u2308log2 n\u2309`. (The range queries of a Fenwick tree also suffer from the elements before the range, C191.) C195_counterexample: `2^53 + (1 + 1)` is exact, but from left to right both ones are lost. C195_counterexample_minus: Subtraction, also in the library's own `range_operation_t` (segment_tree.h:555-584) over `size_t`: `10 - (3 - 2)` instead of `10 - 3 - 2`. The left-to-right claim holds for a `join` exactly if it is associative."
  },
  {
   "property": "C196",
   "status": "partial",
   "theorems": [
    "Verif.Seqs.C196_doubled_partial",
    "Verif.Seqs.C196_max_partial",
    "Verif.Seqs.C196_nan_partial",
    "Verif.Seqs.C196_counterexample",
    "Verif.Seqs.C196_counterexample_nan",
    "Verif.Seqs.C196_whole_partial",
    "Verif.Seqs.C196_error_partial"
   ],
   "note": "What is computed in every case without NaN: the greatest sum of the sequence whose first element, if positive, is doubled (with rounding: infinite if that overflows). Although sums are rounded at every step and the loop keeps only one of them, no subarray has a greater rounded sum. What holds: the empty sequence, sequences that do not start with a positive number, and, always, an upper bound of all sums. Missing: sequences that start with a positive number (`C196_doubled_partial` says what is computed) and NaN (`C196_nan_partial`). With a NaN in the sequence: everything up to the last NaN is forgotten, whatever the sums were; if it is the last element, the result is NaN. From there on the answer is right, also if the next element is positive. For numbers that are whole multiples of one power of two (such as whole numbers) and small enough for 53 bits in total, no sum is rounded: the result is the one for whole numbers (C75). With rounding: for finite numbers of which the first is not positive, and no overflow in sight, the result differs from the greatest exact sum by at most `(1 + 2^-53)^n - 1` times the sum of all magnitudes. C196_counterexample: `max_sum_of` of the one number 5 is 10. C196_counterexample_nan: The greatest sum is lost: `5, NaN, 1` gives 1, `5, NaN` gives NaN, and so does the difference of infinities at the end of a sum only if it is an element; `inf, -inf` gives `inf`."
  },
  {
   "property": "C197",
   "status": "partial",
   "theorems": [
    "Verif.Tools.C197_exact",
    "Verif.Tools.C197_error_partial",
    "Verif.Tools.C197_whole_partial",
    "Verif.Tools.C197_extremes_partial",
    "Verif.Tools.C197_order_partial",
    "Verif.Tools.C197_counterexample",
    "Verif.Tools.C197_counterexample_nan"
   ],
   "note": "With rounding: for finite arguments and no overflow in sight, the variadic sum differs from the exact sum by at most `(1 + 2^-53)^n - 1` times the sum of the magnitudes, where `n` is the number of additions. For whole multiples of one power of two, small enough for 53 bits in total, both orders give the exact sum. Minimum and maximum are right if the first argument is a number, whatever NaNs follow; if it is a NaN, so is the result, whatever numbers follow. Without NaN the order of the arguments does not matter to minimum and maximum. C197_counterexample: `sum_t<double>{}(2^53, 1, 1)` is `2^53 + 2`, but `2^53 + 1 + 1` is `2^53`. C197_counterexample_nan: The minimum of a NaN and 1 depends on their order. The arguments are combined from right to left: the result for all arguments is the one from left to right exactly if the operation is associative."
  },
  {
   "property": "C198",
   "status": "partial",
   "theorems": [
    "Verif.Seg.C198_number_partial",
    "Verif.Seg.C198_nan_partial",
    "Verif.Seg.C198_counterexample",
    "Verif.Seg.C198_counterexample_position"
   ],
   "note": "Proved: if no NaN is addressed (other elements may be NaN), minima and maxima are right, with infinities. Missing: NaN among the addressed elements, for which it is false. With NaN: the answer is one of the addressed elements; it is a NaN exactly if the first of them is one; and every number before the first NaN counts. (Whether those after a NaN count depends on the brackets.) C198_counterexample: The minimum of `3, NaN, 1` is given as 3 at positions 1 to 3 of `5, 3, NaN, 1`. C198_counterexample_position: The same three elements give different answers at different positions."
  },
  {
   "property": "C199",
   "status": "partial",
   "theorems": [
    "Verif.Seqs.C199_rounded_partial",
    "Verif.Seqs.C199_whole_partial",
    "Verif.Seqs.C199_nan_partial",
    "Verif.Seqs.C199_calls_nan",
    "Verif.Seqs.C199_counterexample",
    "Verif.Seqs.C199_counterexample_spurious",
    "Verif.Seqs.C199_counterexample_order"
   ],
   "note": "What is computed for every sequence of doubles, whichever operand is evaluated first: the subsets are counted that leave nothing when their elements are subtracted in order, with rounding. The memo, with NaN as keys that are never found, does not change that. No subset with a NaN counts. C199_counterexample: `1 + 1 + (2^54 - 2)` is `2^54`, but that subset is not found. C199_counterexample_spurious: `1 + 2^54` is not `2^54`, but that subset is counted. \"It uses dynamic programming\", but for the sum NaN it makes all `2^(n+1) - 1` calls."
  },
  {
   "property": "C200",
   "status": "partial",
   "theorems": [
    "Verif.Tools.C200_rows_partial",
    "Verif.Tools.C200_numbers_partial",
    "Verif.Tools.C200_fields_partial",
    "Verif.Tools.C200_counterexample",
    "Verif.Tools.C200_counterexample_empty",
    "Verif.Tools.C200_counterexample_separator"
   ],
   "note": "Proved: if no line after the skipped ones is empty or ends with the separator, both files give the same rows, with the same numbers, up to a \"\\r\" at the end of the text of the last field of each row; also the same exceptions. Missing: the \"\\r\" itself, and the other lines. The numbers of a field do not change. Text columns only: a line that is empty or ends with the separator has one field more, \"\\r\", than with Unix line endings, where the last, empty field is lost; all other lines have the same number of fields. C200_counterexample: For every library: the \"\\r\" becomes part of a text. C200_counterexample_empty: An empty line, harmless at the end of a Unix file, makes a file of numbers throw."
  },
  {
   "property": "C201",
   "status": "partial",
   "theorems": [
    "Verif.Cache.C201_defined_partial",
    "Verif.Cache.C201_rehashes_partial",
    "Verif.Cache.C201_fixed_partial",
    "Verif.Cache.C201_counterexample",
    "Verif.Cache.C201_counterexample_rehash"
   ],
   "note": "Every capacity below `2^58` can be set; none of `2^59` or more can be, unless as much has been reserved before: the conversion to `size_t` is undefined. A cache made with a capacity rehashes its map at most once for each time that its capacity was set, however many elements come and go. With a capacity of two or more that is not changed, it never does. C201_counterexample: A capacity of `2^59` is undefined behaviour. C201_counterexample_rehash: A cache of capacity 1024 made by the default constructor has reserved nothing: it rehashes while it is filled; and a cache made for two elements that is then set to the four that are reserved rehashes at the fifth."
  },
  {
   "property": "C202",
   "status": "proved",
   "theorems": [
    "Verif.Seg.C202_fits",
    "Verif.Seg.C202_exact",
    "Verif.Seg.C202_int"
   ],
   "note": "No overflow: if all sections fit the type, `build` and every sequence of queries are free of overflow and every answer is exact. Exactly then: a section of two or more elements that does not fit makes the query for it overflow. Sums and products of `int`."
  },
  {
   "property": "C203",
   "status": "partial",
   "theorems": [
    "Verif.Seg.C203_bounds_partial",
    "Verif.Seg.C203_locate_partial",
    "Verif.Seg.C203_counterexample",
    "Verif.Seg.C203_counterexample_head"
   ],
   "note": "After every history of calls that begins with an array and in which no empty array is passed: `head()` is the whole array, and every path of bounds through intervals of two or more elements leads to the node of the half that the documentation promises. The leaf of every position is found with `d` steps down from the head if the array has at most `2^d` elements. C203_counterexample: In a tree of six elements the last leaf of the lowest level has index 12; its upper bound is cell 26 of a heap of 24. C203_counterexample_head: After `rebuild({})` the head is still that of the old array; the head of a tree that was never built is reported by the one `head()`, but undefined for the constant one; and the lower bound of a leaf can be a node that was never built, or one of a larger array before."
  },
  {
   "property": "C204",
   "status": "partial",
   "theorems": [
    "Verif.Cache.C204_exact_partial",
    "Verif.Cache.C204_loop_partial",
    "Verif.Cache.C204_counterexample"
   ],
   "note": "Exactly how long a reference is valid: until its element leaves the cache or is promoted by `find` or `operator[]` from another place than the front. From then on reading it is undefined for ever. A loop over the cache that calls `find` for every element is undefined exactly if the cache has two elements or more. C204_counterexample: `auto& r = cache[1]; cache[2]; cache[1];`: the reference `r` to the element 1, which was in the cache all the time, is dangling."
  },
  {
   "property": "C205",
   "status": "partial",
   "theorems": [
    "Verif.Mem.C205_insert_partial",
    "Verif.Mem.C205_other_partial",
    "Verif.Mem.C205_remove_exact",
    "Verif.Mem.C205_counterexample"
   ],
   "note": "The part that holds for the calls that remove nothing: after `insert` (of a copy or a reference), and after enabling or disabling duplicates, every reference to a value in any tree reads the same value, whatever the rotations did. Missing: `remove` and `remove_all` of another value, where `C205_remove_exact` says which reference is lost. The part that holds for other trees: no call on a tree touches the nodes of another tree, not even `clear`. C205_counterexample: the claim fails: in a tree with the values 1, 2 and 3, `remove(2)` deletes the node of 3. Exactly which references `remove(x)` spoils in a tree without duplicates. If the node of `x` has two children, the node of the next value is deleted, though that value stays in the tree, and a reference to `x` reads the next value from then on. If it has not, the node of `x` is deleted. All other references read what they read before."
  },
  {
   "property": "C206",
   "status": "partial",
   "theorems": [
    "Verif.Fenwick.C206_product_partial",
    "Verif.Fenwick.C206_set_value_exact",
    "Verif.Fenwick.C206_counterexample",
    "Verif.Fenwick.C206_exact",
    "Verif.Fenwick.C206_update_exact"
   ],
   "note": "The part that holds: no call overflows if in addition the quotient of the new and the old value of every `set_value` fits. Missing: `set_value` that replaces -1 by the least value of the type (`C206_set_value_exact`). C206_counterexample: the claim fails for every two's complement type: a tree with the one element -1, which `set_value` replaces by the least value. Exactly: when the products fit before and after it and nothing is divided by zero, `set_value` on a two's complement type overflows if and only if it replaces -1 by the least value. The converse: a tree without zeros is built, and answers every query, without overflow exactly if the products of all ranges of its elements fit. The converse for updates: after any history the cells of which fit, a multiplication of an element by `v \u2260 0` and all queries after it return exactly if the products of all ranges of the new elements fit."
  },
  {
   "property": "C207",
   "status": "partial",
   "theorems": [
    "Verif.Avl.C207_height_partial",
    "Verif.Avl.C207_insertions_partial",
    "Verif.Avl.C207_exact",
    "Verif.Avl.C207_counterexample_linear",
    "Verif.Avl.C207_counterexample"
   ],
   "note": "After every history, room for one nested call more than `height()` returns is enough for every call. Missing: that the height is logarithmic, which fails (`C207_counterexample`). After insertions only, without duplicates, a logarithmic number of nested calls is enough; a stack with room for 131 of them is enough for every tree with less than 2^64 elements. C207_counterexample_linear: the claim fails: for every size `K` of the stack there is a history of `8 + 41\u00b7K` insertions and removals after which the tree has `K + 8` elements and cannot be destroyed, cleared, copied or traversed without a stack overflow. C207_counterexample: the claim fails for every constant. Destroying and copying the tree and `pos_order` need as many nested calls as the tree is deep: with less room they overflow the stack."
  },
  {
   "property": "C208",
   "status": "proved",
   "theorems": [
    "Verif.Seg.C208_stack",
    "Verif.Seg.C208_any",
    "Verif.Seg.C208_exact"
   ],
   "note": "After every history of calls, on a tree of at most `2^d` elements, queries, updates and rebuilding from at most `2^d` elements have their results if the stack has room for more than `d` nested calls. Room for 65 nested calls is enough for every tree, as it has at most 2^64 elements. The bound is exact: building a tree of more than `2^d` elements overflows a stack with room for `d + 1` nested calls or less."
  },
  {
   "property": "C209",
   "status": "proved",
   "theorems": [
    "Verif.Seqs.C209_exact",
    "Verif.Seqs.C209_shared",
    "Verif.Seqs.C209_memoised",
    "Verif.Seqs.C209_unbounded"
   ],
   "note": "`sum_of_subsets` gives the right count on a stack with room for one nested call more than there are elements, whatever they are, whatever the sum and whichever operand of the sum is evaluated first; with less room it always overflows the stack. For the second overload: calls that share a memo never need more room than one nested call more than there are elements. A sum that is memoised already takes a single call. No stack is large enough for all sequences; twice the elements need twice the stack."
  },
  {
   "property": "C210",
   "status": "proved",
   "theorems": [
    "Verif.Nary.C210_enough",
    "Verif.Nary.C210_exact",
    "Verif.Nary.C210_chain",
    "Verif.Nary.C210_size"
   ],
   "note": "On a stack with room for as many nested calls as the tree has levels, the destructor and the three traversals return what they return on an unlimited stack, whatever the callback does. Exactly: with less room the destructor and `pos_order` always overflow the stack, and so do the other traversals with a callback that does not stop. A tree has as many levels as nodes if it is a chain, which is how a tree of `max_node_size` 1 always looks: no stack is large enough to destroy all trees. There are never more levels than nodes."
  },
  {
   "property": "C211",
   "status": "partial",
   "theorems": [
    "Verif.Tools.C211_exact",
    "Verif.Tools.C211_plain_partial",
    "Verif.Tools.C211_quotes_partial",
    "Verif.Tools.C211_counterexample",
    "Verif.Tools.C211_counterexample_lost"
   ],
   "note": "**C211, partial.** Full claim: `C211_statement`. Proved for fields that need no quotes. Missing: the others, none of which is read right (`C211_exact`, `C211_counterexample`). **C211, partial**: what is read of fields that have quotes, but no separators and newlines: the text with the quotes around it and the doubled ones. C211_counterexample: the claim fails for every separator. C211_counterexample_lost: the claim fails: a field with a separator is split and, in a file with one column, ends the reading: the rows after it are lost without any error. Exactly: the texts come back if and only if no field needs quotes."
  },
  {
   "property": "C212",
   "status": "proved",
   "theorems": [
    "Verif.Nary.C212_same",
    "Verif.Nary.C212_depth_first",
    "Verif.Nary.C212_binary",
    "Verif.Nary.C212_breadth_first",
    "Verif.Nary.C212_exact",
    "Verif.Nary.C212_leaves",
    "Verif.Nary.C212_widest",
    "Verif.Nary.C212_even"
   ],
   "note": "The loops with the meter do what the searches do. Depth first: in a tree of `levels + 1` levels whose nodes have at most `m` children, at most `(m - 1) \u00b7 levels + 1` nodes wait, whatever the callback does. For binary trees: never more nodes wait than the tree has levels. Breadth first: never more nodes wait than two neighbouring levels have, whatever the callback does. Exactly: a full tree needs all of it. Neither search ever lets more nodes wait than the tree has leaves. A breadth first search that does not stop lets every level wait as a whole, so the queue needs room for the widest level. If all leaves are on one level, a breadth first search that does not stop needs room for exactly the leaves."
  },
  {
   "property": "C213",
   "status": "proved",
   "theorems": [
    "Verif.Tools.Enum.C213_first",
    "Verif.Tools.Enum.C213_unknown",
    "Verif.Tools.Enum.C213_rounds",
    "Verif.Tools.Enum.C213_inverse",
    "Verif.Tools.Enum.C213_documented",
    "Verif.Tools.Enum.C213_negative"
   ],
   "note": "The first value from `minimum` below `maximum` whose name is the string is found, after its name and those of the values before it were asked for. A string that is no name of these values gives `maximum`, after the names of all of them were asked for. Exactly: without a match the condition is tested once for each value and once more. With distinct names `from_string` inverts `to_string`. For the documented `to_string` with distinct names, and the default bounds: a value below `MAX` comes back, any other value of the type gives `MAX`. With the documented `to_string` and a negative `minimum`, the name of `MAX` gives `minimum`."
  },
  {
   "property": "C214",
   "status": "partial",
   "theorems": [
    "Verif.Tools.RandomSigned.C214_exact",
    "Verif.Tools.RandomSigned.C214_range_partial",
    "Verif.Tools.RandomSigned.C214_onto_partial",
    "Verif.Tools.RandomSigned.C214_counterexample"
   ],
   "note": "The part that holds: a range of negative numbers, or of numbers that are not negative. Missing: ranges that contain both. There every number of the range is drawn for some output of the generator. C214_counterexample: the claim fails for every signed type: the range from -1 to 0. Exactly: undefined behaviour for a range from a negative number to one that is not, otherwise the numbers of the range in turn."
  },
  {
   "property": "C215",
   "status": "partial",
   "theorems": [
    "Verif.Seqs.C215_wrapped",
    "Verif.Seqs.C215_count_partial",
    "Verif.Seqs.C215_atleast",
    "Verif.Seqs.C215_exact",
    "Verif.Seqs.C215_counterexample"
   ],
   "note": "Where the sum of the whole sequence fits the element type. Missing: sequences whose total does not fit, for which subsets that overshoot `s` by a multiple of `2^w` are counted as well (`C215_counterexample`). C215_counterexample: does not hold: among the bytes 200 and 56 only the empty subset adds up to 0, but both together are counted too. What the code computes for every unsigned type: subsets whose sums agree with `s` modulo `2^w` are counted. The count is never too small: every subset that adds up to `s` is among those counted. Exactly when the count is right: for fewer than 64 elements it is the number of subsets that add up to `s` iff no subset overshoots `s` by a multiple of `2^w`."
  },
  {
   "property": "C216",
   "status": "partial",
   "theorems": [
    "Verif.Seqs.C216_twice",
    "Verif.Seqs.C216_exact",
    "Verif.Seqs.C216_max_partial",
    "Verif.Seqs.C216_element",
    "Verif.Seqs.C216_counterexample"
   ],
   "note": "For the empty sequence and for sequences that begin with 0. Missing: other sequences, where the first element is counted twice (`C216_exact`) or that sum wraps around. C216_counterexample: does not hold: the greatest sum of the sequence 1 is 1, and the answer is 2. What the code computes while nothing wraps around: the first element is counted twice. Exactly: while nothing wraps around the answer is right iff the first element is 0. Also where sums wrap around: the answer is at least every single element."
  },
  {
   "property": "C217",
   "status": "partial",
   "theorems": [
    "Verif.Seqs.C217_agrees",
    "Verif.Seqs.C217_wrapped",
    "Verif.Seqs.C217_sound_partial",
    "Verif.Seqs.C217_found",
    "Verif.Seqs.C217_counterexample"
   ],
   "note": "Where the sum of the whole sequence fits the type. Missing: other sequences, where a sum that wraps around to the required one is taken for it (`C217_counterexample`). C217_counterexample: does not hold: no subarray of `2^31, 2^31` has the sum 0, but the answer for 32 bits is 2. Where the sum of the whole sequence fits the type the answer is that for the same integers, so that all that is known about those (C73, C74) holds. What the code computes: sums agree modulo `2^w`. No subarray is missed altogether: if one has the required sum the answer is not 0."
  },
  {
   "property": "C218",
   "status": "partial",
   "theorems": [
    "Verif.Seqs.C218_width",
    "Verif.Seqs.C218_agrees",
    "Verif.Seqs.C218_sound_partial",
    "Verif.Seqs.C218_missed",
    "Verif.Seqs.C218_counterexample"
   ],
   "note": "Where the sum of the whole sequence fits the type. Missing: other sequences, for which subarrays are missed and others taken for them (`C218_counterexample`). C218_counterexample: does not hold. C218: the width of the type does not matter where the sum of the whole sequence fits. Where the sum of the whole sequence fits the type the answer is that for the same integers. Unlike `C217_found`: among the bytes 200 and 100 the subarray 100 is missed, since the second sum wraps around and the difference does not."
  }
 ]
}