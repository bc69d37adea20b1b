{"id": "C01", "title": "Fenwick range sum after construction", "statement": "For a sum Fenwick tree built from a vector (optionally limited to its first number_of_elements elements), query(a,b) returns the sum of the stored elements at 1-based positions lo..hi, where the bounds may be given in either order, each bound above the number of stored elements counts as that number, and position 0 holds nothing.", "quantifier": "every input vector, every element limit, every pair of bounds (including reversed, zero and out-of-range bounds), every commutative group of values (wrap-around machine integers and ideal integers)", "why_tests_cant": "the lowest-set-bit chains differ for every index and size; only an invariant over all indices covers all of them", "anchors": ["AdvancedLibraryCpp/structures/fenwick_tree.h: fenwick_tree_t, _build, _update, _range_query, query"]}
{"id": "C02", "title": "Fenwick sum tree behaves like a plain array over any history", "statement": "After any sequence of rebuild, update, set_value, resize (to at least one cell), copy and move operations on any number of trees, every query on a sum Fenwick tree returns what the same operations on a plain array followed by a range sum would return.", "quantifier": "every operation sequence, every size, every query", "why_tests_cant": "histories are unbounded; errors in one chain update surface only in particular later queries", "anchors": ["AdvancedLibraryCpp/structures/fenwick_tree.h: rebuild, update, set_value, resize, query"]}
{"id": "C03", "title": "Fenwick set_value sets exactly one position", "statement": "set_value(p,v) on a built sum tree returns true iff 0 < p < size(); then query(p,p)=v and query(q,q) is unchanged for every other q; otherwise nothing changes.", "quantifier": "every reachable sum tree, position and value", "why_tests_cant": "needs all positions to be unaffected for all sizes", "anchors": ["AdvancedLibraryCpp/structures/fenwick_tree.h: set_value"]}
{"id": "C04", "title": "Fenwick update result and frame", "statement": "update(p,v) on a built tree returns true iff p < size(); for p = 0 or p >= size() no query answer changes; for 0<p<size() the element at p becomes element + v and every other element is unchanged.", "quantifier": "every reachable sum tree, position and value", "why_tests_cant": "frame conditions quantify over all other positions", "anchors": ["AdvancedLibraryCpp/structures/fenwick_tree.h: update, _update"]}
{"id": "C05", "title": "Fenwick unbuilt trees throw, moves transfer", "statement": "query, update and set_value on a tree that is not built throw fenwick_not_built_exception_t and change nothing; after moving from a tree the source is not built and empty, and the destination answers exactly as the source did.", "quantifier": "every history of operations before the call", "why_tests_cant": "must hold after every history, including chains of moves and rebuilds", "anchors": ["AdvancedLibraryCpp/structures/fenwick_tree.h: operator=(fenwick_tree_t&&), is_built, query, update, set_value"]}
{"id": "C06", "title": "Fenwick range product", "statement": "For a multiplication Fenwick tree over integers, query(a,b) returns the product of the elements in the clamped range.", "quantifier": "every input vector and bounds", "why_tests_cant": "zero elements are a corner of the value domain; tests use positive numbers only", "anchors": ["AdvancedLibraryCpp/structures/fenwick_tree.h: _range_query", "AdvancedLibraryCpp/tools/math_operation.h: multiplication_t, division_t"]}
{"id": "C07", "title": "Fenwick product update multiplies by the given value", "statement": "update(p,v) on a multiplication tree multiplies the element at p by v, for every v.", "quantifier": "every reachable product tree, position and value v", "why_tests_cant": "v = 0 is one value in an unbounded domain", "anchors": ["AdvancedLibraryCpp/structures/fenwick_tree.h: update"]}
{"id": "C08", "title": "Fenwick downsizing keeps the remaining prefix", "statement": "After resize(k) with k < size(), size() = k and every query whose bounds lie below k returns exactly what it returned before; resize(k) with k >= size() changes nothing.", "quantifier": "every reachable tree, every k, every later query", "why_tests_cant": "depends on all tree nodes at once", "anchors": ["AdvancedLibraryCpp/structures/fenwick_tree.h: resize"]}
{"id": "C09", "title": "Fenwick calls never touch memory outside the internal array", "statement": "Every query, update and set_value on a built tree terminates and only reads or writes existing cells, whatever the bounds passed.", "quantifier": "every reachable tree, every argument in the size_t range", "why_tests_cant": "out-of-bounds accesses may pass tests silently", "anchors": ["AdvancedLibraryCpp/structures/fenwick_tree.h: _update, _range_query, lsb, next_update, next_query"]}
{"id": "C10", "title": "union_set same() is connectivity", "statement": "same(a,b) returns true iff a and b exist and are connected through the joins performed so far, with or without path compression.", "quantifier": "every history of resize/join/find/same/size_of calls, every order in which the compiler evaluates function arguments", "why_tests_cant": "path compression reshapes the forest differently for each history", "anchors": ["AdvancedLibraryCpp/structures/union_set.h: same, _same_set, _find, join"]}
{"id": "C11", "title": "union_set join() result", "statement": "join(a,b) returns true iff both sets exist and they were not yet connected; afterwards exactly the classes of a and b are merged.", "quantifier": "every reachable state and arguments", "why_tests_cant": "needs all pairs of elements", "anchors": ["AdvancedLibraryCpp/structures/union_set.h: join, _join, _join_set"]}
{"id": "C12", "title": "union_set disjoint() counts the classes", "statement": "disjoint() always equals the number of equivalence classes of the elements.", "quantifier": "every history of resize/join/find/same/size_of", "why_tests_cant": "global counting invariant over all histories", "anchors": ["AdvancedLibraryCpp/structures/union_set.h: disjoint"]}
{"id": "C13", "title": "union_set size_of() is the class size", "statement": "size_of(x) equals the number of elements connected to x, and 0 if x does not exist, whatever compressions happened before.", "quantifier": "every history", "why_tests_cant": "the rank bookkeeping during compression is only right because of an invariant on non-root ranks", "anchors": ["AdvancedLibraryCpp/structures/union_set.h: size_of, _find, _join_set"]}
{"id": "C14", "title": "union_set find() returns a canonical member and disturbs nothing", "statement": "find(x) returns a member of x's class, find(x)=find(y) iff same(x,y), find on a missing set returns not_found, and find/same/size_of never change which elements are connected, the class sizes or disjoint().", "quantifier": "every history, all elements", "why_tests_cant": "compression writes to the structure during reads", "anchors": ["AdvancedLibraryCpp/structures/union_set.h: find, _find"]}
{"id": "C15", "title": "union_set lookups take logarithmic depth", "statement": "The recursion of find(x) never goes deeper than log2 of the size of x's class.", "quantifier": "every history, with and without compression", "why_tests_cant": "worst case over all join orders", "anchors": ["AdvancedLibraryCpp/structures/union_set.h: _find, _join (union by rank)"]}
{"id": "C16", "title": "union_set insert() contract", "statement": "insert(x) returns true iff x was not present before, and after it x is present as its own singleton without disturbing others.", "quantifier": "every reachable state and x", "why_tests_cant": "existing-element behaviour depends on prior joins", "anchors": ["AdvancedLibraryCpp/structures/union_set.h: insert"]}
{"id": "C17", "title": "acorn() counts sets without parent", "statement": "acorn() equals the number of sets that have no parent.", "quantifier": "every history", "why_tests_cant": "relation between a counter and the whole forest", "anchors": ["AdvancedLibraryCpp/structures/union_set.h: acorn, _join", "AdvancedLibraryCpp/structures/union_find.h: acorn"]}
{"id": "C18", "title": "union_find over elements is connectivity", "statement": "For element-keyed calls (insert, join_sets, same_set, find_by_elem, size_of(elem)): insert returns true iff the element is new, same_set is connectivity under the join_sets performed, join_sets returns true iff it merged two classes, size_of is the class size and disjoint() the number of classes.", "quantifier": "every history, every element type with equality", "why_tests_cant": "unbounded histories with compression", "anchors": ["AdvancedLibraryCpp/structures/union_find.h: insert, join_sets, same_set, find_by_elem, size_of, disjoint"]}
{"id": "C19", "title": "union_find set-id calls accept exactly the existing set ids", "statement": "find(id), join(id1,id2), same(id1,id2) and size_of(id) treat an id as valid iff it is the id of an existing set, and never access out of bounds.", "quantifier": "every reachable state and ids", "why_tests_cant": "depends on the relation between keys and ids", "anchors": ["AdvancedLibraryCpp/structures/union_find.h: find, join, same, exists, exists_set"]}
{"id": "C20", "title": "LRU cache never exceeds its capacity", "statement": "After every operation size() <= capacity().", "quantifier": "every operation sequence", "why_tests_cant": "history-dependent", "anchors": ["AdvancedLibraryCpp/structures/cache.h: add, clip, set_capacity"]}
{"id": "C21", "title": "LRU cache behaves as a recency list", "statement": "Starting from construction, any sequence of add/find/[]/remove/clear/set_capacity/clip behaves, for every observer (contains, values, size, most_recent, least_recent, last_operation, clipped), like an abstract duplicate-free list of keys ordered by recency; the internal map and list never disagree and no dangling iterator is used.", "quantifier": "every operation sequence, every key type", "why_tests_cant": "map/list consistency over unbounded histories", "anchors": ["AdvancedLibraryCpp/structures/cache.h: cache_t"]}
{"id": "C22", "title": "LRU find promotes and preserves order", "statement": "find(k) reports whether k is cached; if so k becomes the most recent and the relative order of all other keys is unchanged; if not, nothing changes.", "quantifier": "every reachable cache and key", "why_tests_cant": "all other keys must keep their order", "anchors": ["AdvancedLibraryCpp/structures/cache.h: find, move_to_front"]}
{"id": "C23", "title": "LRU eviction order and on_discard", "statement": "When adding or shrinking overflows the capacity, exactly the least recently used keys are removed, on_discard is called once for each in least-recent-first order, and clipped() is their number; remove and clear never call on_discard.", "quantifier": "every reachable cache, every new capacity", "why_tests_cant": "number of evictions is unbounded", "anchors": ["AdvancedLibraryCpp/structures/cache.h: clip, on_discard, set_capacity"]}
{"id": "C24", "title": "LRU content characterised by the access history", "statement": "With fixed capacity and a history of operator[] accesses, the cache holds exactly the (at most capacity) most recently accessed distinct keys, most recent first.", "quantifier": "every access sequence and capacity >= 1", "why_tests_cant": "quantifies over entire histories", "anchors": ["AdvancedLibraryCpp/structures/cache.h: operator[], add, find"]}
{"id": "C25", "title": "LRU operator[] returns the requested key", "statement": "cache[k] returns a reference to an element equal to k, which is now the most recent one.", "quantifier": "every reachable cache, every capacity, every k", "why_tests_cant": "capacity 0 is reachable through set_capacity", "anchors": ["AdvancedLibraryCpp/structures/cache.h: operator[]"]}
{"id": "C26", "title": "LRU copies are independent and fully usable", "statement": "A copied cache has the same contents as the original and every operation on either is well defined and does not affect the other.", "quantifier": "every reachable cache and every later operation", "why_tests_cant": "iterator ownership is invisible to value-level tests", "anchors": ["AdvancedLibraryCpp/structures/cache.h: cache_t(const cache_t&), operator=(const cache_t&)"]}
{"id": "C27", "title": "LRU moved cache takes over the contents", "statement": "After moving a cache, the destination behaves exactly like the source did and the source is empty and usable.", "quantifier": "every reachable cache", "why_tests_cant": "history dependent", "anchors": ["AdvancedLibraryCpp/structures/cache.h: cache_t(cache_t&&)"]}
{"id": "C28", "title": "LRU remove accepts references obtained from the cache", "statement": "remove(k) removes k if present, also when k is a reference returned by the cache itself (most_recent(), least_recent(), *begin()).", "quantifier": "every reachable cache, every element", "why_tests_cant": "use-after-free is not visible to value-level tests", "anchors": ["AdvancedLibraryCpp/structures/cache.h: remove"]}
{"id": "C29", "title": "LRU last_operation reports insertion/removal", "statement": "After add(k) last_operation() is true iff k was absent; after remove(k) it is true iff k was present; add of a present key changes neither contents nor order.", "quantifier": "every reachable cache and key", "why_tests_cant": "every history", "anchors": ["AdvancedLibraryCpp/structures/cache.h: add, remove, last_operation"]}
{"id": "C30", "title": "AVL tree stays sorted", "statement": "In every reachable avl_tree_t the in-order sequence of values is sorted (strictly when duplicates were never enabled).", "quantifier": "every history of insert/remove/remove_all/clear/enable_duplicates/disable_duplicates", "why_tests_cant": "rotations happen in history-dependent places", "anchors": ["AdvancedLibraryCpp/structures/binary_tree.h: avl_tree_t::insert, remove, rotate_*"]}
{"id": "C31", "title": "AVL tree is a set", "statement": "With duplicates disabled, contains(x) is true iff x was inserted and not removed since; insert returns true iff x was absent; remove returns true iff x was present.", "quantifier": "every history, every linearly ordered value type", "why_tests_cant": "unbounded histories", "anchors": ["AdvancedLibraryCpp/structures/binary_tree.h: insert, remove, contains"]}
{"id": "C32", "title": "AVL tree with duplicates is a multiset", "statement": "With duplicates enabled every insert adds one occurrence, remove removes exactly one occurrence if any, remove_all removes all and returns how many.", "quantifier": "every history", "why_tests_cant": "unbounded histories, duplicates end up on both sides after rotations", "anchors": ["AdvancedLibraryCpp/structures/binary_tree.h: enable_duplicates, insert, remove, remove_all"]}
{"id": "C33", "title": "AVL size() is the number of elements", "statement": "size() equals the number of nodes in the tree.", "quantifier": "every history of insert/remove/remove_all/clear", "why_tests_cant": "counter vs structure", "anchors": ["AdvancedLibraryCpp/structures/binary_tree.h: size, clear"]}
{"id": "C34", "title": "AVL stays balanced under insertions", "statement": "With duplicates disabled and no removals, at every node the two subtree heights differ by at most one, so height() is logarithmic in size().", "quantifier": "every insertion sequence", "why_tests_cant": "needs all insertion orders", "anchors": ["AdvancedLibraryCpp/structures/binary_tree.h: rotate_if_needed"]}
{"id": "C35", "title": "AVL stays balanced under removals", "statement": "After any sequence of insert and remove the two subtree heights differ by at most one at every node.", "quantifier": "every history of insert/remove, duplicates disabled", "why_tests_cant": "the failing shape needs a particular combination of subtree heights", "anchors": ["AdvancedLibraryCpp/structures/binary_tree.h: rotate_on_remove_if_needed"]}
{"id": "C36", "title": "AVL stays balanced with duplicates", "statement": "With duplicates enabled, after any insertions the two subtree heights differ by at most one at every node.", "quantifier": "every insertion sequence with duplicates enabled", "why_tests_cant": "the failing case needs equal keys at a rotation point", "anchors": ["AdvancedLibraryCpp/structures/binary_tree.h: rotate_if_needed"]}
{"id": "C37", "title": "AVL height() is the real height", "statement": "height() equals the number of nodes on the longest root-to-leaf path.", "quantifier": "every history of insert/remove/clear", "why_tests_cant": "cached heights must be refreshed on every path", "anchors": ["AdvancedLibraryCpp/structures/binary_tree.h: height, _height, rotate_*"]}
{"id": "C38", "title": "AVL left_most/right_most are min and max", "statement": "On a non-empty tree left_most() and right_most() hold the smallest and the greatest value.", "quantifier": "every reachable non-empty tree", "why_tests_cant": "all histories", "anchors": ["AdvancedLibraryCpp/structures/binary_tree.h: left_most, right_most"]}
{"id": "C39", "title": "AVL copy is equal and fully functional", "statement": "A copied tree has the same values, shape, size() and height() as the original, and later insertions keep it balanced.", "quantifier": "every reachable tree", "why_tests_cant": "cached metadata must be copied for all shapes", "anchors": ["AdvancedLibraryCpp/structures/binary_tree.h: binary_node_t::operator=(const binary_node_t&)", "AdvancedLibraryCpp/structures/tree.h: tree_t::operator=(const tree_t&)"]}
{"id": "C40", "title": "AVL move leaves an empty tree", "statement": "After moving from an AVL tree the destination has all elements and the source has none and size() 0.", "quantifier": "every reachable tree", "why_tests_cant": "counter and structure are moved separately", "anchors": ["AdvancedLibraryCpp/structures/tree.h: tree_t::operator=(tree_t&&)", "AdvancedLibraryCpp/structures/binary_tree.h: avl_tree_t"]}
{"id": "C41", "title": "AVL parent() is the real parent", "statement": "For every node of the tree, parent() is the node whose left() or right() it is; the root has no parent.", "quantifier": "every history of insert/remove", "why_tests_cant": "wrong links appear only for subtrees moved by a rotation", "anchors": ["AdvancedLibraryCpp/structures/binary_tree.h: rotate_left, rotate_right", "AdvancedLibraryCpp/structures/tree.h: parent"]}
{"id": "C42", "title": "Binary in_order visits every node in order", "statement": "in_order with a callback that never stops calls it once per node in left-node-right order and returns the number of nodes; on an AVL tree the values come out sorted.", "quantifier": "every binary tree", "why_tests_cant": "all shapes", "anchors": ["AdvancedLibraryCpp/structures/binary_tree.h: binary_node_t::in_order", "AdvancedLibraryCpp/structures/tree.h: tree_t::in_order"]}
{"id": "C43", "title": "Binary pre_order and pos_order visit every node once", "statement": "pre_order / pos_order with a non-stopping callback call it once per node in node-left-right / left-right-node order and return the number of nodes; pos_order ignores the callback's result.", "quantifier": "every binary tree and callback", "why_tests_cant": "all shapes", "anchors": ["AdvancedLibraryCpp/structures/binary_tree.h: pre_order, pos_order"]}
{"id": "C44", "title": "depth_first_search is a stoppable pre-order", "statement": "depth_first_search calls the predicate on the nodes in pre-order up to and including the first one for which it returns true, and returns the number of calls.", "quantifier": "every tree (binary and n-ary, with null slots) and predicate", "why_tests_cant": "all shapes and predicates", "anchors": ["AdvancedLibraryCpp/structures/tree.h: depth_first_search"]}
{"id": "C45", "title": "breadth_first_search is a stoppable level order", "statement": "breadth_first_search calls the predicate on the nodes level by level, left to right, up to and including the first one for which it returns true, and returns the number of calls.", "quantifier": "every tree and predicate", "why_tests_cant": "all shapes and predicates", "anchors": ["AdvancedLibraryCpp/structures/tree.h: breadth_first_search"]}
{"id": "C46", "title": "Recursive traversals stop at the node for which the callback returns true", "statement": "in_order / pre_order: if the callback returns true the search ends at this node, i.e. it is not called again.", "quantifier": "every tree and callback", "why_tests_cant": "depends on the position of the stopping node", "anchors": ["AdvancedLibraryCpp/structures/binary_tree.h: in_order, pre_order", "AdvancedLibraryCpp/structures/tree.h: tree_t::in_order (documentation)"]}
{"id": "C47", "title": "tree_node child slots obey the limit", "statement": "Starting from a fresh node, after any sequence of add_child, insert_at, insert_at_first_null, delete_child, extract_child, clear (and replace_at within the limit) the node has at most max_node_size slots, and each call's result says exactly whether it had an effect: add_child/insert_* return true iff one child was added, extract_child returns a node iff one child was taken out, delete_child returns true iff one slot was removed; otherwise nothing changes.", "quantifier": "every operation sequence, every max_node_size", "why_tests_cant": "unbounded histories", "anchors": ["AdvancedLibraryCpp/structures/tree.h: tree_node_t"]}
{"id": "C48", "title": "replace_at outside the limit is a no-op", "statement": "replace_at(position, child) with position >= max_allowed_children() changes nothing and returns nullptr.", "quantifier": "every node and position", "why_tests_cant": "writes out of bounds silently", "anchors": ["AdvancedLibraryCpp/structures/tree.h: replace_at"]}
{"id": "C49", "title": "tree_node slot operations frame", "statement": "insert_at/replace_at/extract_child/delete_child affect only the addressed slot (delete_child shifts later slots left by one), find returns the first slot holding the value, children_count the number of non-null slots, child(pos) throws exactly for missing or null slots.", "quantifier": "every reachable node, position and value", "why_tests_cant": "all slots quantified", "anchors": ["AdvancedLibraryCpp/structures/tree.h: insert_at, replace_at, extract_child, delete_child, find, child, first, last"]}
{"id": "C50", "title": "n-ary in_order visit counts", "statement": "in_order on an n-ary tree with a non-stopping callback visits every node: a node without slots once, a node with one slot once, a node with k>=2 slots k-1 times (between consecutive children); the returned number is the number of nodes.", "quantifier": "every n-ary tree with arbitrary null slots", "why_tests_cant": "wrap-around counter inside the loop", "anchors": ["AdvancedLibraryCpp/structures/tree.h: tree_node_t::in_order"]}
{"id": "C51", "title": "n-ary in_order stops when asked", "statement": "if the callback returns true during in_order of an n-ary tree, it is not called again.", "quantifier": "every n-ary tree and callback", "why_tests_cant": "leaf and inner nodes are treated differently", "anchors": ["AdvancedLibraryCpp/structures/tree.h: tree_node_t::in_order"]}
{"id": "C52", "title": "Copying an n-ary tree", "statement": "Copy construction/assignment of a tree_t over tree_node_t yields an independent tree: each node is owned and destroyed exactly once.", "quantifier": "every n-ary tree with at least one child", "why_tests_cant": "double deletes may pass tests", "anchors": ["AdvancedLibraryCpp/structures/tree.h: tree_t::operator=(const tree_t&), tree_node_t::operator= (default)"]}
{"id": "C53", "title": "Tree copy assignment makes the target equal to the source", "statement": "after a = b the tree a has exactly the nodes of b, for every previous content of a, including empty b and self assignment, and the previous nodes of a are released.", "quantifier": "every pair of trees", "why_tests_cant": "empty source / self assignment corner cases", "anchors": ["AdvancedLibraryCpp/structures/tree.h: tree_t::operator=(const tree_t&)"]}
{"id": "C54", "title": "binary_node copy and move", "statement": "copy assignment of a binary_node deep-copies values and shape with correct parent links among the copied nodes; move assignment transfers the children and leaves the source without children.", "quantifier": "every binary tree", "why_tests_cant": "all shapes", "anchors": ["AdvancedLibraryCpp/structures/binary_tree.h: binary_node_t::operator="]}
{"id": "C55", "title": "Segment tree range query after build", "statement": "After building from a non-empty vector, query(a,b) returns the left-to-right join of the (built) elements in the clamped inclusive range [min(a,b), max(a,b)], for every associative join (commutativity not needed).", "quantifier": "every non-empty vector, element limit, bounds, associative join", "why_tests_cant": "all split points of all ranges", "anchors": ["AdvancedLibraryCpp/structures/segment_tree.h: build, _range_query, query"]}
{"id": "C56", "title": "Segment tree stays inside its heap", "statement": "Build, query and query_update only touch heap cells below the allocated 4*size cells and terminate.", "quantifier": "every size, every range", "why_tests_cant": "index arithmetic for every size", "anchors": ["AdvancedLibraryCpp/structures/segment_tree.h: minimum_required_size_for_head, build, lower_bound, upper_bound"]}
{"id": "C57", "title": "Segment tree lazy range updates", "statement": "For a transform whose apply/propagate are lawful (an update acts on a segment value like acting on each element; propagate pushes it to both children), after any sequence of query and query_update calls every query returns the join of the elements with all updates applied pointwise in order.", "quantifier": "every history of query/query_update, every lawful transform, every criteria function", "why_tests_cant": "interleavings of lazy marks and queries are unbounded", "anchors": ["AdvancedLibraryCpp/structures/segment_tree.h: _range_update, _range_query, segment_node_t"]}
{"id": "C58", "title": "Segment tree query_update returns the new range value", "statement": "query_update(a,b,u) returns the value a query(a,b) right after it returns; argument order of bounds is irrelevant.", "quantifier": "every reachable tree, bounds, update", "why_tests_cant": "histories", "anchors": ["AdvancedLibraryCpp/structures/segment_tree.h: query_update"]}
{"id": "C59", "title": "Segment tree without updates", "statement": "With the default empty_update_t, query_update changes nothing and returns the range value; queries never change later answers.", "quantifier": "every reachable tree", "why_tests_cant": "histories", "anchors": ["AdvancedLibraryCpp/structures/segment_tree.h: empty_update_t, query_update"]}
{"id": "C60", "title": "Segment tree unbuilt access throws; rebuild replaces contents", "statement": "query/query_update on a never built tree throw heap_not_built_exception_t; after rebuild(v) all answers refer to v only, also when v is empty or smaller or larger than before.", "quantifier": "every history of rebuilds", "why_tests_cant": "stale nodes of previous builds remain in the heap", "anchors": ["AdvancedLibraryCpp/structures/segment_tree.h: rebuild, build, is_built, size"]}
{"id": "C61", "title": "heap_t index arithmetic", "statement": "parent_of(left_child_of(p)) = parent_of(right_child_of(p)) = p; children of different positions are different; every position but 0 is the child of exactly its parent.", "quantifier": "every position without size_t overflow", "why_tests_cant": "all positions", "anchors": ["AdvancedLibraryCpp/structures/heap.h: left_child_of, right_child_of, parent_of"]}
{"id": "C62", "title": "heap_t swaps exchange exactly two elements", "statement": "swap(pos) exchanges the element with its parent's, swap_with_left_child/right_child with the child if it exists; nothing else changes and doing it twice restores the heap.", "quantifier": "every heap and position", "why_tests_cant": "frame over all other positions", "anchors": ["AdvancedLibraryCpp/structures/heap.h: swap, swap_with_left_child, swap_with_right_child"]}
{"id": "C63", "title": "heap_t set_left / set_right store the value", "statement": "set_left(pos,v) / set_right(pos,v) make the left/right child of pos equal to v, growing the heap when needed.", "quantifier": "every heap and position", "why_tests_cant": "the boundary left==size() is a single point per heap", "anchors": ["AdvancedLibraryCpp/structures/heap.h: set_left, set_right"]}
{"id": "C64", "title": "command manager undo/redo round trip", "statement": "After store(c), undo() returns c and redo() returns it again; undo with nothing stored returns nullptr.", "quantifier": "every history of store/undo/redo", "why_tests_cant": "histories", "anchors": ["AdvancedLibraryCpp/structures/command.h: undo, redo, store"]}
{"id": "C65", "title": "command manager bounded history and single deletion", "statement": "At most 1024 commands are kept, the oldest are deleted first, and every stored command is deleted at most once and exactly once after destruction.", "quantifier": "every history of store/dispose/destruction", "why_tests_cant": "histories longer than 1024", "anchors": ["AdvancedLibraryCpp/structures/command.h: clip, dispose, ~command_manager_t"]}
{"id": "C66", "title": "find_missing_arithmetic_in_sorted: a reported value is the missing one", "statement": "For an arithmetic progression with exactly one element removed, if the function returns {true,v} then v is the removed element.", "quantifier": "every progression (start, nonzero factor, length, removed position)", "why_tests_cant": "all lengths and positions", "anchors": ["AdvancedLibraryCpp/classic/sequences/missing_element.h: find_missing_arithmetic_in_sorted"]}
{"id": "C67", "title": "find_missing_arithmetic_in_sorted always finds the missing element", "statement": "For every arithmetic progression with exactly one inner element removed the function returns it; for a complete progression it returns {false, lower}; no element outside [first,last) is read.", "quantifier": "every progression and removed position", "why_tests_cant": "the probing sequence depends on length and position", "anchors": ["AdvancedLibraryCpp/classic/sequences/missing_element.h: find_missing_arithmetic_in_sorted"]}
{"id": "C68", "title": "find_missing_geometric_in_sorted (integers): a reported value is the missing one", "statement": "For a geometric progression with exactly one element removed, if the function returns {true,v} then v is the removed element.", "quantifier": "every progression of nonzero integers", "why_tests_cant": "all lengths and positions", "anchors": ["AdvancedLibraryCpp/classic/sequences/missing_element.h: find_missing_geometric_in_sorted"]}
{"id": "C69", "title": "find_missing_geometric_in_sorted always finds the missing element", "statement": "For every geometric progression with exactly one inner element removed the function returns it, reading only elements in [first,last).", "quantifier": "every progression and removed position", "why_tests_cant": "the probing sequence depends on length and position", "anchors": ["AdvancedLibraryCpp/classic/sequences/missing_element.h: find_missing_geometric_in_sorted"]}
{"id": "C70", "title": "find_missing_sequential_range", "statement": "If the range is any permutation of lower..lower+n with one value missing, the function returns {true, that value}; for an empty range {false,0}.", "quantifier": "every lower, n, missing value, permutation, machine integer width", "why_tests_cant": "factorially many orders", "anchors": ["AdvancedLibraryCpp/classic/sequences/missing_element.h: find_missing_sequential_range"]}
{"id": "C71", "title": "find_not_common_element", "statement": "If the first range is, in any order, the second range plus one extra element, (or the reverse with a non-empty first range) the function returns that element.", "quantifier": "all ranges and orders", "why_tests_cant": "factorially many orders", "anchors": ["AdvancedLibraryCpp/classic/sequences/missing_element.h: find_not_common_element"]}
{"id": "C72", "title": "find_non_repeated_element", "statement": "If every value but one occurs an even number of times and that one an odd number of times, the function returns it.", "quantifier": "all ranges and orders", "why_tests_cant": "factorially many orders", "anchors": ["AdvancedLibraryCpp/classic/sequences/missing_element.h: find_non_repeated_element"]}
{"id": "C73", "title": "max_length_of_sum returns the length of a matching subarray", "statement": "If max_length_of_sum returns n > 0 there is a contiguous subarray of length n with the required sum; if no subarray matches it returns 0.", "quantifier": "every sequence and required sum", "why_tests_cant": "all sequences", "anchors": ["AdvancedLibraryCpp/classic/sequences/subarray.h: max_length_of_sum"]}
{"id": "C74", "title": "max_length_of_sum is the longest", "statement": "max_length_of_sum returns the length of the longest contiguous subarray with the required sum.", "quantifier": "every sequence and required sum", "why_tests_cant": "quadratically many subarrays for each of infinitely many inputs", "anchors": ["AdvancedLibraryCpp/classic/sequences/subarray.h: max_length_of_sum"]}
{"id": "C75", "title": "max_sum_of is the greatest subarray sum", "statement": "max_sum_of returns the greatest sum of a non-empty contiguous subarray, and 0 for the empty sequence.", "quantifier": "every sequence", "why_tests_cant": "all sequences", "anchors": ["AdvancedLibraryCpp/classic/sequences/subarray.h: max_sum_of"]}
{"id": "C76", "title": "sum_of_subsets counts subsets", "statement": "sum_of_subsets(first,last,s) returns the number (modulo 2^64) of index subsets whose elements add up to s.", "quantifier": "every sequence of integers (negatives, zeros, repeats) and every s", "why_tests_cant": "exponentially many subsets", "anchors": ["AdvancedLibraryCpp/classic/sequences/subset.h: sum_of_subsets"]}
{"id": "C77", "title": "sum_of_subsets cache reuse", "statement": "Calls sharing one cache object for the same sequence, with arbitrary sums and start positions in arbitrary order, return the same numbers as calls with a fresh cache.", "quantifier": "every sequence of calls", "why_tests_cant": "histories of cache contents", "anchors": ["AdvancedLibraryCpp/classic/sequences/subset.h: sum_of_subsets (second overload)"]}
{"id": "C78", "title": "gcd is the greatest common divisor", "statement": "gcd(a,b) terminates and returns the greatest common divisor of a and b (gcd(0,0)=0).", "quantifier": "all 64-bit unsigned a,b", "why_tests_cant": "2^128 inputs", "anchors": ["AdvancedLibraryCpp/tools/divisors.h: gcd"]}
{"id": "C79", "title": "divisors_of lists the proper divisors", "statement": "divisors_of(n) contains every d with 1<d<n that divides n exactly once and nothing else; with sorting it is increasing.", "quantifier": "every 64-bit n", "why_tests_cant": "2^64 inputs", "anchors": ["AdvancedLibraryCpp/tools/divisors.h: divisors_of"]}
{"id": "C80", "title": "Variadic arithmetic functors", "statement": "sum_t / multiplication_t / minimum_t / maximum_t applied to any number of arguments return the sum / product / least / greatest argument.", "quantifier": "every argument list", "why_tests_cant": "all arities", "anchors": ["AdvancedLibraryCpp/tools/math_operation.h"]}
{"id": "C81", "title": "enum from_string inverts to_string", "statement": "from_string(to_string(v)) = v for every v in [minimum,maximum) when names are distinct; any other string yields maximum.", "quantifier": "every enum naming, bounds and string", "why_tests_cant": "all strings", "anchors": ["AdvancedLibraryCpp/tools/enum_factory.h: from_string"]}
{"id": "C82", "title": "custom delimiter tokenisation", "statement": "Reading a stream imbued with custom_delimiter_t<Filter> yields exactly the maximal runs of characters accepted by Filter.", "quantifier": "every text and filter", "why_tests_cant": "all texts", "anchors": ["AdvancedLibraryCpp/tools/delimiters.h: custom_delimiter_t"]}
{"id": "C83", "title": "CSV reading round trip", "statement": "Reading a file whose lines are the separator-joined fields of rows (within the descriptor width, fields free of separator and newline, last field of a row non-empty) gives back exactly those rows after skipping start_offset lines.", "quantifier": "every table and separator", "why_tests_cant": "all tables", "anchors": ["AdvancedLibraryCpp/tools/read_csv.h: csv_reader_t::read_csv_file"]}
{"id": "C84", "title": "CSV typed getters", "statement": "get_int()/get_double() return the parsed value of the text of the field, whatever the descriptor type of the column.", "quantifier": "every field text and type", "why_tests_cant": "reads of uninitialised members look random", "anchors": ["AdvancedLibraryCpp/tools/read_csv.h: generic_field_t"]}
{"id": "C85", "title": "CSV rows longer than the descriptor", "statement": "A row with more fields than the descriptor stops reading: exactly the rows before it are returned; shorter rows are returned as they are.", "quantifier": "every file", "why_tests_cant": "all files", "anchors": ["AdvancedLibraryCpp/tools/read_csv.h: read_csv_file"]}
{"id": "C86", "title": "next_random stays in range", "statement": "next_random(start,end) returns a value between start and end inclusive.", "quantifier": "every start<=end and every generator output", "why_tests_cant": "all generator outputs", "anchors": ["AdvancedLibraryCpp/tools/random.h: next_random"]}
{"id": "C87", "title": "next_random_string length and alphabet", "statement": "next_random_string(n,set) has exactly n characters, all from set (printable ASCII when set is empty).", "quantifier": "every n, set and generator output", "why_tests_cant": "all generator outputs", "anchors": ["AdvancedLibraryCpp/tools/random.h: next_random_string, next_random_char"]}
{"id": "C88", "title": "Semaphore never over-allocates", "statement": "With a fixed number of resources, count() never exceeds it and at most that many threads are between a returned lock()/successful try_lock() and their unlock().", "quantifier": "every number of threads and every interleaving", "why_tests_cant": "schedules", "anchors": ["AdvancedLibraryCpp/concurrency/semaphore.h: lock, try_lock, unlock"]}
{"id": "C89", "title": "Semaphore unlock never underflows", "statement": "count() equals successful acquisitions minus effective unlocks and unlock on a free semaphore has no effect.", "quantifier": "every interleaving", "why_tests_cant": "schedules", "anchors": ["AdvancedLibraryCpp/concurrency/semaphore.h: unlock, decrecement"]}
{"id": "C90", "title": "Semaphore try_lock is exact and non blocking", "statement": "try_lock succeeds iff count() < max_count() at its atomic step, and never blocks.", "quantifier": "every interleaving", "why_tests_cant": "schedules", "anchors": ["AdvancedLibraryCpp/concurrency/semaphore.h: try_lock"]}
{"id": "C91", "title": "Semaphore waiters are not lost", "statement": "Whenever a resource is free, every thread blocked in lock() can still acquire it by its own timed wake-up, even if notifications went to other threads or were lost.", "quantifier": "every interleaving, every resize of the resources", "why_tests_cant": "lost wake-ups need precise schedules", "anchors": ["AdvancedLibraryCpp/concurrency/semaphore.h: lock (wait_for), set_available_resources"]}
{"id": "C92", "title": "Semaphore changing resources", "statement": "set_available_resources changes only the limit: holders keep their resources, no acquisition happens while count() >= the current limit, lock() throws out_of_resources_exception iff the limit is 0 when it starts.", "quantifier": "every interleaving", "why_tests_cant": "schedules", "anchors": ["AdvancedLibraryCpp/concurrency/semaphore.h: set_available_resources, lock"]}
{"id": "C93", "title": "Message queue delivers FIFO, exactly once", "statement": "Without discard_messages the sequence of messages handed to on_new_message is always a prefix of the sequence of messages received (in the order of insertion into the queue); none is duplicated, reordered or invented.", "quantifier": "every number of senders, every interleaving, every stop time", "why_tests_cant": "schedules", "anchors": ["AdvancedLibraryCpp/concurrency/message_queue.h: receive_message, run, pop"]}
{"id": "C94", "title": "Message queue stop processes all earlier messages", "statement": "Every message received before stop() was called is processed before the thread ends (no discard).", "quantifier": "every interleaving", "why_tests_cant": "race between the last emptiness test and the stop flag", "anchors": ["AdvancedLibraryCpp/concurrency/message_queue.h: stop, run"]}
{"id": "C95", "title": "Message queue discard", "statement": "discard_messages removes only messages that were never processed; processed messages are a subsequence of the received ones in order, and every received message is processed, discarded or still queued, exactly one of them.", "quantifier": "every interleaving", "why_tests_cant": "schedules", "anchors": ["AdvancedLibraryCpp/concurrency/message_queue.h: discard_messages, run, clear"]}
{"id": "C96", "title": "Message queue never pops an empty queue", "statement": "The worker never calls front/top/pop on an empty queue.", "quantifier": "every interleaving", "why_tests_cant": "schedules", "anchors": ["AdvancedLibraryCpp/concurrency/message_queue.h: run, pop"]}
{"id": "C97", "title": "Message queue lifecycle", "statement": "on_start is called once before the first message, on_stop once after the last one; no message is handled outside this window, and run() when already running throws.", "quantifier": "every interleaving of one started worker", "why_tests_cant": "schedules", "anchors": ["AdvancedLibraryCpp/concurrency/message_queue.h: run, on_start, on_stop"]}
{"id": "C98", "title": "Message queue with a priority queue", "statement": "With a heap-like queue, each processed message was a greatest one among those queued at that moment.", "quantifier": "every interleaving, every priority order", "why_tests_cant": "schedules", "anchors": ["AdvancedLibraryCpp/concurrency/message_queue.h: pop (top)", "AdvancedLibraryCpp/concurrency/message_queue.h: pointer_comparison"]}
{"id": "C99", "title": "pointer_comparison is a strict weak order", "statement": "pointer_comparison orders non-null pointers exactly as transform_t orders the pointees and is a strict weak order whenever transform_t is.", "quantifier": "every pointee order", "why_tests_cant": "all triples", "anchors": ["AdvancedLibraryCpp/concurrency/message_queue.h: pointer_comparison"]}
{"id": "C100", "title": "thread_t exit code life cycle", "statement": "exit_code() is NOT_STARTED before start(), NOT_FINISHED while run() executes, and run()'s result afterwards; is_running() is true exactly in between (for results of run() other than NOT_FINISHED itself); join/destructor wait for run(). In the moment between the return of run() and the end of the thread either value may be seen.", "quantifier": "every interleaving of the owner and the thread", "why_tests_cant": "schedules", "anchors": ["AdvancedLibraryCpp/concurrency/thread.h: thread_t"]}
{"id": "C101", "title": "Timer stop() stops the timer", "statement": "After start() followed by stop(), on_interval is eventually not called any more and join() returns.", "quantifier": "every interleaving of stop() with the starting thread", "why_tests_cant": "the race window is tiny", "anchors": ["AdvancedLibraryCpp/concurrency/timer.h: stop, run"]}
{"id": "C102", "title": "Timer does not fire early", "statement": "Without notify(), with a constant interval and a system clock that is not set forward, on_interval is never called earlier than the interval after the previous call (or after the start).", "quantifier": "every sequence of spurious wake-ups and delays", "why_tests_cant": "schedules and clock values", "anchors": ["AdvancedLibraryCpp/concurrency/timer.h: run"]}
{"id": "C103", "title": "Timer stops on failure and reports it", "statement": "When on_interval returns a value other than EXIT_SUCCESS, it is not called again and that value becomes the exit code; timer_t maps a false callback to EXIT_FAILURE.", "quantifier": "every interleaving", "why_tests_cant": "schedules", "anchors": ["AdvancedLibraryCpp/concurrency/timer.h: run, timer_t::on_interval"]}
{"id": "C104", "title": "Timer lifecycle callbacks", "statement": "on_start is called once before any on_interval, and on_stop is called once when the timer stops.", "quantifier": "every interleaving", "why_tests_cant": "schedules", "anchors": ["AdvancedLibraryCpp/concurrency/timer.h: _on_start, _on_stop, stop"]}
{"id": "C105", "title": "Fenwick update with a value read from the tree", "statement": "update(p, tree[q]) combines element p with the value tree[q] had at the time of the call.", "quantifier": "every reachable tree, every p and q", "why_tests_cant": "the reference argument aliases the internal array only for particular index pairs", "anchors": ["AdvancedLibraryCpp/structures/fenwick_tree.h: update, _update, operator[], at"]}
{"id": "C106", "title": "Fenwick set_value on a product tree", "statement": "set_value(p,v) on a multiplication tree makes query(p,p) equal to v.", "quantifier": "every reachable product tree, position and value", "why_tests_cant": "exactness of integer division depends on the values", "anchors": ["AdvancedLibraryCpp/structures/fenwick_tree.h: set_value", "AdvancedLibraryCpp/tools/math_operation.h: division_t"]}
{"id": "C107", "title": "find_missing_geometric_in_sorted (floating point) finds the missing element", "statement": "For a geometric progression with exactly one inner element removed, if the jump left by it exceeds float_error, the floating point overload returns {true, the removed element}; whatever it reports is the removed element.", "quantifier": "every progression, tolerance >= 0 and removed position (exact arithmetic)", "why_tests_cant": "the probing sequence depends on length and position", "anchors": ["AdvancedLibraryCpp/classic/sequences/missing_element.h: find_missing_geometric_in_sorted (floating point overload)"]}
{"id": "C108", "title": "Semaphore is free of data races", "statement": "No two threads access a member of the semaphore at the same time without a common lock, one of them writing.", "quantifier": "every interleaving of every number of threads", "why_tests_cant": "a data race rarely shows", "anchors": ["AdvancedLibraryCpp/concurrency/semaphore.h: max_count, set_available_resources"]}
{"id": "C109", "title": "Message queue is free of data races", "statement": "The container and the running flag of the queue are never accessed by two threads at the same time without a common lock, one of them writing.", "quantifier": "every interleaving of the worker and any number of clients", "why_tests_cant": "a data race rarely shows", "anchors": ["AdvancedLibraryCpp/concurrency/message_queue.h: pred, receive_message, is_running, run"]}
{"id": "C110", "title": "Message queue can be started again", "statement": "After a stopped run the queue can be started again and the new run goes on until stop() is called again.", "quantifier": "every interleaving", "why_tests_cant": "needs a second start", "anchors": ["AdvancedLibraryCpp/concurrency/message_queue.h: stop, run"]}
{"id": "C111", "title": "thread_t can be started again and destroyed at any time", "statement": "No sequence of start(), join() and destruction leads to std::terminate or to a call of the pure virtual run().", "quantifier": "every interleaving of the owner and the thread", "why_tests_cant": "the fatal windows are tiny or need a second start", "anchors": ["AdvancedLibraryCpp/concurrency/thread.h: start, ~thread_t"]}
{"id": "C112", "title": "thread_t is free of data races", "statement": "exit_code() and is_running() never read the exit code while the thread writes it.", "quantifier": "every interleaving", "why_tests_cant": "a data race rarely shows", "anchors": ["AdvancedLibraryCpp/concurrency/thread.h: exit_code, is_running, start"]}
{"id": "C113", "title": "Timer is free of data races", "statement": "The interval is never read by the timer thread while another thread writes it.", "quantifier": "every interleaving of the timer thread and any number of clients", "why_tests_cant": "a data race rarely shows", "anchors": ["AdvancedLibraryCpp/concurrency/timer.h: set_interval, run"]}
{"id": "C114", "title": "Timer notify() is not lost", "statement": "After notify() the request stays pending until on_interval is called.", "quantifier": "every interleaving of the timer thread and any number of clients", "why_tests_cant": "needs a notify during the callback", "anchors": ["AdvancedLibraryCpp/concurrency/timer.h: notify, run"]}
{"id": "C115", "title": "Message queue size() and empty() answer correctly", "statement": "size() returns the number of messages inserted and not yet taken out for processing or dropped at the moment it answers, empty() whether that number is zero.", "quantifier": "every interleaving of the worker and any number of clients, any container", "why_tests_cant": "the answer must be right at one moment of a concurrent run", "anchors": ["AdvancedLibraryCpp/concurrency/message_queue.h: size, empty"]}
{"id": "C116", "title": "AVL trees are memory safe", "statement": "Any program that uses any number of AVL trees (member calls, copies, moves, self-assignments, destructions) accesses no null pointer and no deleted node, deletes nothing twice and returns from every call; every pointer in a tree leads to an allocated node and no node is reachable in two ways.", "quantifier": "every program over any number of trees", "why_tests_cant": "dangling pointers need particular sequences of rotations, removals and assignments to show, and often go unnoticed", "anchors": ["AdvancedLibraryCpp/structures/binary_tree.h: binary_node_t, avl_tree_t", "AdvancedLibraryCpp/structures/tree.h: tree_t"]}
{"id": "C117", "title": "AVL trees do not leak", "statement": "Every node that was allocated and not deleted is reachable from a tree; when all trees are gone no node is left.", "quantifier": "every program over any number of trees", "why_tests_cant": "a leak does not change any result", "anchors": ["AdvancedLibraryCpp/structures/binary_tree.h: binary_node_t, avl_tree_t", "AdvancedLibraryCpp/structures/tree.h: tree_t, operator="]}
{"id": "C118", "title": "AVL trees are independent values", "statement": "Any program over any number of AVL trees behaves as if each were an independent multiset, copied and moved as a value: results, contents and counters agree.", "quantifier": "every program over any number of trees", "why_tests_cant": "sharing between trees shows only after particular sequences of assignments and changes", "anchors": ["AdvancedLibraryCpp/structures/binary_tree.h: avl_tree_t", "AdvancedLibraryCpp/structures/tree.h: tree_t::operator="]}
{"id": "C119", "title": "AVL insert, remove and contains accept references into a tree", "statement": "insert, remove and contains called with a reference to a value stored in a live node, also of the same tree, do what they do with a copy of the value.", "quantifier": "every reachable memory, tree and live node", "why_tests_cant": "the reference aliases memory the call overwrites or frees only in some shapes", "anchors": ["AdvancedLibraryCpp/structures/binary_tree.h: insert, remove, contains"]}
{"id": "C120", "title": "AVL remove_all accepts references into the tree", "statement": "remove_all called with a reference to a value stored in a live node does what it does with a copy of the value.", "quantifier": "every reachable memory, tree and live node", "why_tests_cant": "reading a freed node often returns the old value", "anchors": ["AdvancedLibraryCpp/structures/binary_tree.h: remove_all"]}
{"id": "C121", "title": "AVL tree height stays logarithmic", "statement": "The height of an AVL tree is at most a constant times the logarithm of its number of elements, after any insertions and removals.", "quantifier": "every history of insert and remove", "why_tests_cant": "the trees that degenerate need long, carefully ordered histories; random tests hardly meet them", "anchors": ["AdvancedLibraryCpp/structures/binary_tree.h: insert, remove, rotate_if_needed, rotate_on_remove_if_needed"]}
{"id": "C122", "title": "Plain binary tree programs are memory safe", "statement": "Any program over any number of plain binary trees (adding, copying, moving and assigning nodes and whole trees, writing values, destroying trees) that names existing nodes accesses no null pointer and no deleted node, deletes nothing twice and returns from every call.", "quantifier": "every program over any number of trees", "why_tests_cant": "assignments between a node and its descendants are rare in tests, and reading a deleted node often returns the old value", "anchors": ["AdvancedLibraryCpp/structures/binary_tree.h: binary_node_t::operator=, add_left, add_right", "AdvancedLibraryCpp/structures/tree.h: tree_t::operator=, add_root"]}
{"id": "C123", "title": "Plain binary tree programs compute the assigned contents", "statement": "After node and tree assignments each tree holds what assignment of independent values would give: the target has the value and the children of the source, everything else is unchanged.", "quantifier": "every program over any number of trees", "why_tests_cant": "aliasing between source and target shows only for particular pairs of nodes", "anchors": ["AdvancedLibraryCpp/structures/binary_tree.h: binary_node_t::operator=", "AdvancedLibraryCpp/structures/tree.h: tree_t::operator="]}
{"id": "C124", "title": "Plain binary tree nodes know their parent", "statement": "After every program parent() of each reachable node is the node it hangs under, and the root has none.", "quantifier": "every program over any number of trees", "why_tests_cant": "a wrong parent shows only when a moved node is asked for it", "anchors": ["AdvancedLibraryCpp/structures/binary_tree.h: binary_node_t::operator=(binary_node_t&&)", "AdvancedLibraryCpp/structures/tree.h: base_node_t::parent"]}
{"id": "C125", "title": "Plain binary trees do not leak", "statement": "Every node that was allocated and not deleted is reachable from a tree; when all trees are gone no node is left.", "quantifier": "every program over any number of trees", "why_tests_cant": "a leak does not change any result", "anchors": ["AdvancedLibraryCpp/structures/binary_tree.h: binary_node_t::operator=, ~binary_node_t", "AdvancedLibraryCpp/structures/tree.h: tree_t::operator=, ~tree_t"]}
{"id": "C126", "title": "add_root, add_left and add_right accept references into the tree", "statement": "add_root, add_left and add_right called with a reference to a value stored in a live node, also of the same tree, do what they do with a copy of the value.", "quantifier": "every reachable memory, tree and live node", "why_tests_cant": "reading a freed node often returns the old value", "anchors": ["AdvancedLibraryCpp/structures/tree.h: add_root", "AdvancedLibraryCpp/structures/binary_tree.h: add_left, add_right"]}
{"id": "C127", "title": "Timer is not late", "statement": "While the system clock is not set back and the interval is constant, on_interval is called at latest the interval after the previous call (or the start), plus the time the timer thread spent awake or oversleeping.", "quantifier": "every schedule of the timer thread, its wake-ups and its clients", "why_tests_cant": "the delay needs wake-ups at particular fractions of a millisecond", "anchors": ["AdvancedLibraryCpp/concurrency/timer.h: base_timer_t::run"]}
{"id": "C128", "title": "Timer stop() and notify() wake the thread", "statement": "Once stop() has notified, the timer thread does not sleep again unless a notification for it is under way; the same after notify() until the next call of on_interval.", "quantifier": "every schedule of the timer thread and its clients", "why_tests_cant": "the window between testing the flag and falling asleep is a few instructions wide", "anchors": ["AdvancedLibraryCpp/concurrency/timer.h: base_timer_t::run, stop, notify"]}
{"id": "C129", "title": "N-ary tree programs are memory safe", "statement": "Any program over any number of n-ary trees, their nodes and owning pointers (adding, inserting, replacing, extracting and deleting children, assigning nodes and trees, destroying them) accesses no null pointer, no deleted node and no slot outside a vector, deletes nothing twice and returns from every call.", "quantifier": "every program over any number of trees and owning pointers", "why_tests_cant": "double deletion shows only when both owners are destroyed, and often goes unnoticed", "anchors": ["AdvancedLibraryCpp/structures/tree.h: tree_node_t, tree_t::operator=, replace_at, clear"]}
{"id": "C130", "title": "N-ary tree programs compute the assigned contents", "statement": "The results of every call and the contents of every tree and owning pointer are those of the same program over immutable trees that are copied and moved as values.", "quantifier": "every program over any number of trees and owning pointers", "why_tests_cant": "sharing between nodes shows only after particular sequences of assignments and changes", "anchors": ["AdvancedLibraryCpp/structures/tree.h: tree_node_t, tree_t"]}
{"id": "C131", "title": "N-ary tree nodes know their parent", "statement": "After every program parent() of each reachable node is the node it hangs under; roots and extracted nodes have none.", "quantifier": "every program over any number of trees and owning pointers", "why_tests_cant": "a wrong or dangling parent shows only when an assigned node is asked for it", "anchors": ["AdvancedLibraryCpp/structures/tree.h: base_node_t::parent, operator=, tree_node_t::operator=, extract_child, replace_at"]}
{"id": "C132", "title": "N-ary trees do not leak", "statement": "Every node that was allocated and not deleted is reachable from a tree or an owning pointer; when all are gone no node is left.", "quantifier": "every program over any number of trees and owning pointers", "why_tests_cant": "a leak does not change any result", "anchors": ["AdvancedLibraryCpp/structures/tree.h: tree_node_t::operator=, ~tree_node_t, tree_t::operator="]}
{"id": "C133", "title": "N-ary nodes keep to their maximum", "statement": "No node ever has more than max_node_size child slots, and every number up to that can be reached.", "quantifier": "every program over any number of trees and owning pointers, every maximum", "why_tests_cant": "needs mixtures of the five ways to create slots and the assignments between nodes", "anchors": ["AdvancedLibraryCpp/structures/tree.h: add_child, insert_at_first_null, insert_at, replace_at"]}
{"id": "C134", "title": "Message queue can be destroyed while running", "statement": "Destroying an object of a class derived from message_queue_t at any moment calls no pure virtual function and interrupts no callback; when the object is gone its thread has ended.", "quantifier": "every schedule of the worker, the clients and the owner who destroys the object", "why_tests_cant": "the window lies between the destructors of the derived class and of message_queue_t", "anchors": ["AdvancedLibraryCpp/concurrency/message_queue.h: ~message_queue_t, safe_delete, run", "AdvancedLibraryCpp/concurrency/thread.h: thread_t::~thread_t"]}
{"id": "C135", "title": "Timer can be destroyed while running", "statement": "Destroying a timer at any moment calls no pure virtual function and interrupts no callback; when the object is gone its thread has ended.", "quantifier": "every schedule of the timer thread, the clients and the owner who destroys the timer", "why_tests_cant": "the window lies between the destructors of timer_t and of base_timer_t, or needs the destruction to begin before the thread has started its loop", "anchors": ["AdvancedLibraryCpp/concurrency/timer.h: ~base_timer_t, stop, safe_delete, run, timer_t"]}
{"id": "C136", "title": "AVL trees used through their base class are memory safe", "statement": "A program that uses AVL trees both through their own functions and through those of their base class and its nodes accesses no null pointer and no deleted node, deletes nothing twice, returns from every call and loses no node.", "quantifier": "every interleaving of operations of avl_tree_t, of its base class and of the nodes, on any number of trees", "why_tests_cant": "the rotations were written for trees whose heights and shape only avl_tree_t changes; others arise only through the base class", "anchors": ["AdvancedLibraryCpp/structures/binary_tree.h: avl_tree_t", "AdvancedLibraryCpp/structures/tree.h: tree_t::add_root, root"]}
{"id": "C137", "title": "AVL trees used through their base class keep their promises", "statement": "The values stay in order, size() is their number and contains finds exactly them, whatever is done through the base class.", "quantifier": "every interleaving of operations of avl_tree_t, of its base class and of the nodes, on any number of trees", "why_tests_cant": "the const overloads hide the nodes, so tests use only the functions of avl_tree_t", "anchors": ["AdvancedLibraryCpp/structures/binary_tree.h: avl_tree_t::insert, remove, contains, size", "AdvancedLibraryCpp/structures/tree.h: tree_t::add_root, root"]}
{"id": "C138", "title": "Tree traversals allow callbacks that change the tree", "statement": "A traversal of a binary or AVL tree accesses no null pointer and no deleted node, whatever its callback does to the trees, and returns the number of its visits.", "quantifier": "every callback (any operations on any trees, depending on everything that happened before), every tree that programs build, all five traversals", "why_tests_cant": "a deleted node that is read once more usually still has its old contents", "anchors": ["AdvancedLibraryCpp/structures/binary_tree.h: in_order, pre_order, pos_order", "AdvancedLibraryCpp/structures/tree.h: depth_first_search, breadth_first_search"]}
{"id": "C139", "title": "Traversals visit every node once while values change", "statement": "A traversal whose callback only changes values (set_value, swap), of any nodes of any trees, and never stops it, ends, visits every node of the tree exactly once in the order of the traversal, returns their number and leaves the nodes and shape of all trees.", "quantifier": "every such callback, every tree that programs build, all five traversals", "why_tests_cant": "needs callbacks whose changes depend on the history of the visits", "anchors": ["AdvancedLibraryCpp/structures/binary_tree.h: in_order, pre_order, pos_order", "AdvancedLibraryCpp/structures/tree.h: depth_first_search, breadth_first_search"]}
{"id": "C140", "title": "LRU on_discard overrides may use the cache", "statement": "Whatever an override of on_discard does with the cache, every call returns, uses no erased list node and leaves a cache whose contains() agrees with its list; each discarded key is reported once.", "quantifier": "every override (any calls, depending on the state and the key), every history of calls", "why_tests_cant": "needs an override that calls back while a discard is under way", "anchors": ["AdvancedLibraryCpp/structures/cache.h: clip, on_discard, add, set_capacity, clear"]}
{"id": "C141", "title": "LRU cache survives exceptions", "statement": "When the allocation of list nodes or map entries, the copy, hash or comparison of keys, or an override of on_discard throws, the cache stays coherent: contains() agrees with the list, no key is in it twice and later calls are defined.", "quantifier": "every history of calls, every choice of the points that throw", "why_tests_cant": "tests do not make allocations, hash functions or comparisons fail at chosen moments", "anchors": ["AdvancedLibraryCpp/structures/cache.h: add, clip, find, move_to_front, remove, operator[], set_capacity"]}
{"id": "C142", "title": "Fenwick sums of signed integers do not overflow", "statement": "If every sum of neighbouring elements fits the signed element type before and after each call, no call on Fenwick trees overflows and every result is the exact one.", "quantifier": "every history of calls on any number of trees, every signed type", "why_tests_cant": "overflow needs values near the limits of the type in particular cells", "anchors": ["AdvancedLibraryCpp/structures/fenwick_tree.h: _update, _query, _range_query, set_value, build"]}
{"id": "C143", "title": "max_length_of_sum does not overflow", "statement": "If every sum of neighbouring elements and the required sum fit the signed type, max_length_of_sum performs no overflowing operation.", "quantifier": "every sequence and required sum, every signed type", "why_tests_cant": "the subtraction overflows only for prefix sums and required sums of opposite signs near the limits", "anchors": ["AdvancedLibraryCpp/classic/sequences/subarray.h: max_length_of_sum"]}
{"id": "C144", "title": "max_sum_of does not overflow", "statement": "If every sum of neighbouring elements fits the signed type, max_sum_of performs no overflowing operation.", "quantifier": "every sequence, every signed type", "why_tests_cant": "needs elements near the limits of the type", "anchors": ["AdvancedLibraryCpp/classic/sequences/subarray.h: max_sum_of"]}
{"id": "C145", "title": "sum_of_subsets does not overflow", "statement": "If the wanted sum and the sum of every subset fit the signed type, sum_of_subsets performs no overflowing operation.", "quantifier": "every sequence and wanted sum, every signed type, both evaluation orders", "why_tests_cant": "the differences are intermediate values of a recursion over all subsets", "anchors": ["AdvancedLibraryCpp/classic/sequences/subset.h: sum_of_subsets"]}
{"id": "C146", "title": "Message queue callbacks may call the queue", "statement": "on_start, on_new_message and on_stop may call every method of their own queue: the program is not terminated, each call returns, and messages stay in order.", "quantifier": "every behaviour of the callbacks (any calls, depending on the history), every schedule of the worker and the clients", "why_tests_cant": "needs callbacks that call back and schedules in which other threads hold the mutex", "anchors": ["AdvancedLibraryCpp/concurrency/message_queue.h: run, receive_message, stop, discard_messages, size, safe_delete", "AdvancedLibraryCpp/concurrency/thread.h: join, start"]}
{"id": "C147", "title": "Timer callbacks may call the timer", "statement": "on_start, on_interval and on_stop may call every method of their own timer: the program is not terminated, each call returns, and after stop() on_interval is not called again.", "quantifier": "every behaviour of the callbacks (any calls, depending on the state), every schedule of the thread and the clients", "why_tests_cant": "needs callbacks that call back, in particular from on_start", "anchors": ["AdvancedLibraryCpp/concurrency/timer.h: run, stop, notify, set_interval, _on_start, ~base_timer_t", "AdvancedLibraryCpp/concurrency/thread.h: join, start"]}
{"id": "C148", "title": "Objects in a lockable_t are atomic under their lock", "statement": "If every thread reads a lockable_t only while it owns its mutex (at least shared) and writes only while it owns it exclusively, no data race occurs, all reads and copies return what one thread would see that made the same calls one after the other, and nobody else uses the object between a lock and its unlock.", "quantifier": "every number of threads, every schedule, objects of any number of parts, exclusive and shared locking", "why_tests_cant": "tests run a few threads for a short time and compare the final contents", "anchors": ["AdvancedLibraryCpp/concurrency/safe.h: lockable_t"]}
{"id": "C149", "title": "lockable_t is constructed by moving from rvalues", "statement": "A lockable_t has the contents of the argument it is constructed from or assigned; an rvalue argument is moved from (left empty, nothing copied), other arguments are unchanged.", "quantifier": "every argument category of the constructors and assignments, all contents", "why_tests_cant": "the tests move only from a lockable_t, and a copy has the right contents too", "anchors": ["AdvancedLibraryCpp/concurrency/safe.h: lockable_t constructors, operator="]}
{"id": "C150", "title": "Predefined delimiter filters are defined for every character", "statement": "A custom_delimiter_t can be made from each predefined filter without undefined behaviour, and then reads the maximal runs of accepted characters.", "quantifier": "every class of characters, every text, signed and unsigned char", "why_tests_cant": "common C libraries give some answer for negative characters, so nothing is seen to fail", "anchors": ["AdvancedLibraryCpp/tools/delimiters.h: alpha_filter_t, get_table"]}
{"id": "C151", "title": "Random numbers may be drawn by several threads", "statement": "Whatever the schedule, the numbers that threads draw are those of the generator, each once.", "quantifier": "every number of threads, every schedule, every generator", "why_tests_cant": "needs two calls that overlap within a few instructions, and random numbers look right anyway", "anchors": ["AdvancedLibraryCpp/tools/random.h: next_random, next_random_double, next_random_string, next_random_char"]}
{"id": "C152", "title": "timestamp_t measures the time since the last reset", "statement": "elapsed() and difference() give the time since the last reset or the construction in whole units, rounded towards zero; on a clock that does not go backwards they are not negative, less than one unit below the real time, and do not decrease.", "quantifier": "every history of calls, every clock reading and unit", "why_tests_cant": "a test cannot choose what the clock shows", "anchors": ["AdvancedLibraryCpp/tools/timestamp.h: timestamp_t"]}
{"id": "C153", "title": "max_length_of_sum over floating point numbers", "statement": "For floating point elements a positive result is the length of a subarray with the required sum, and the result is 0 only if there is none.", "quantifier": "every sequence of fractions with exact sums and every required sum", "why_tests_cant": "tests use integers", "anchors": ["AdvancedLibraryCpp/classic/sequences/subarray.h: max_length_of_sum"]}
{"id": "C154", "title": "Union sets survive exceptions", "statement": "A call of union_find_t or union_set_t that throws (allocation, or copy, hash or comparison of an element) has no effect.", "quantifier": "every history of calls, every point that can throw", "why_tests_cant": "tests do not make allocations fail at chosen moments", "anchors": ["AdvancedLibraryCpp/structures/union_find.h: insert", "AdvancedLibraryCpp/structures/union_set.h: resize"]}
{"id": "C155", "title": "AVL trees survive exceptions", "statement": "A call of avl_tree_t that throws (allocation, or copy or comparison of an element) leaves the contents as they were.", "quantifier": "every history of calls, every point that can throw, also in several calls", "why_tests_cant": "tests do not make comparisons or allocations fail at chosen moments", "anchors": ["AdvancedLibraryCpp/structures/binary_tree.h: avl_tree_t insert, remove, contains, rotate_if_needed"]}
{"id": "C156", "title": "The search for a missing element of an arithmetic sequence does not overflow", "statement": "If the elements of the full progression fit the signed element type, find_missing_arithmetic_in_sorted performs no overflowing operation and gives the exact result.", "quantifier": "every progression, every position of the gap, every signed element type and wider type", "why_tests_cant": "needs elements near the limits of the type", "anchors": ["AdvancedLibraryCpp/classic/sequences/missing_element.h: find_missing_arithmetic_in_sorted"]}
{"id": "C157", "title": "The search for a missing element of a geometric sequence is exact", "statement": "If the elements of the full sequence fit the signed element type, find_missing_geometric_in_sorted performs no undefined operation and finds what it would find with exact powers.", "quantifier": "every sequence, every position of the gap, the power computed in double precision", "why_tests_cant": "needs elements that double precision cannot represent", "anchors": ["AdvancedLibraryCpp/classic/sequences/missing_element.h: find_missing_geometric_in_sorted"]}
{"id": "C158", "title": "n-ary trees survive exceptions", "statement": "A statement about tree_t or tree_node_t that throws (allocation, growing vector, or copy of an element) leaves the contents, the parents and the allocated nodes as they were.", "quantifier": "every program over trees, nodes and owning pointers, every point that can throw, also in several statements", "why_tests_cant": "tests do not make allocations or copies fail at chosen moments", "anchors": ["AdvancedLibraryCpp/structures/tree.h: add_root, add_child, insert_at_first_null, insert_at, replace_at, swap, operator="]}
{"id": "C159", "title": "Binary trees survive exceptions", "statement": "A statement about binary_tree_t or its nodes that throws (allocation, or copy of an element) leaves the contents, the parents and the allocated nodes as they were.", "quantifier": "every program over binary trees and their nodes, every point that can throw, also in several statements and at any depth of a copy", "why_tests_cant": "tests do not make allocations or copies fail at chosen moments", "anchors": ["AdvancedLibraryCpp/structures/binary_tree.h: operator=, add_left, add_right, swap", "AdvancedLibraryCpp/structures/tree.h: add_root, operator=, swap"]}
{"id": "C160", "title": "Segment trees survive exceptions", "statement": "A call of segment_tree_t that throws (an operation of the transform, or an allocation) leaves the tree representing a list of elements: later queries return the joins of its slices.", "quantifier": "every lawful transform, every history of calls, every operation that can throw, also in several calls", "why_tests_cant": "tests do not make the operations of a transform throw at chosen moments", "anchors": ["AdvancedLibraryCpp/structures/segment_tree.h: _range_query, _range_update, build, query, query_update, rebuild"]}
{"id": "C161", "title": "Fenwick trees survive exceptions", "statement": "A call of fenwick_tree_t that throws (an addition or subtraction of elements, or growing the array) has no effect.", "quantifier": "every history of calls on any number of trees, every operation that can throw, also in several calls, elements of any commutative group", "why_tests_cant": "tests do not make additions or allocations fail at chosen moments", "anchors": ["AdvancedLibraryCpp/structures/fenwick_tree.h: _build, _update, _query, set_value, operator="]}
{"id": "C162", "title": "A start() that fails leaves no trace", "statement": "If start() throws because no thread can be created, exit_code() and is_running() answer as they would without the call, and the object can be joined, destroyed and started again.", "quantifier": "every state of the object and of an earlier thread, every interleaving with the thread and observers, any number of failures", "why_tests_cant": "tests do not exhaust the threads of the system", "anchors": ["AdvancedLibraryCpp/concurrency/thread.h: start, exit_code, is_running", "AdvancedLibraryCpp/concurrency/message_queue.h: is_running", "AdvancedLibraryCpp/concurrency/timer.h: is_running"]}
{"id": "C163", "title": "AVL trees answer truthfully for elements that cannot be compared", "statement": "Also for element types whose comparisons are no linear order, such as double with NaN: an inserted value is contained, a refused one was contained, remove() reports true only for a contained value and changes nothing when it reports false.", "quantifier": "every history of calls, every result of the comparisons; exact behaviour for NaN without duplicates", "why_tests_cant": "tests insert integers only", "anchors": ["AdvancedLibraryCpp/structures/binary_tree.h: avl_tree_t insert, remove, remove_all, contains, rotate_if_needed"]}
{"id": "C164", "title": "LRU caches work for keys that are not equal to themselves", "statement": "Whatever the == of the keys (NaN is unequal to itself, -0.0 equal to 0.0): an added key is contained if the capacity is not 0, operator[] returns an equal key, and the map has no more entries than the capacity.", "quantifier": "every symmetric and transitive equality of keys, every history of calls and capacities", "why_tests_cant": "tests use integers and strings as keys", "anchors": ["AdvancedLibraryCpp/structures/cache.h: add, clip, find, operator[], remove, contains, set_capacity"]}
{"id": "C165", "title": "next_random_double stays in range", "statement": "next_random_double(start, end) with start <= end returns a double between start and end inclusive, in spite of rounding.", "quantifier": "all finite doubles start <= end, all outputs of the generator, every choice between equally near doubles", "why_tests_cant": "tests draw a few numbers from a few ranges", "anchors": ["AdvancedLibraryCpp/tools/random.h: next_random_double"]}
{"id": "C166", "title": "Timers and semaphores wait as long as they were told", "statement": "For every interval or time-out that the parameter type can hold, a wait begun at any time of the clock ends exactly when asked for.", "quantifier": "every interval of integer or floating point type, every time of the clock", "why_tests_cant": "tests use intervals of a few milliseconds", "anchors": ["AdvancedLibraryCpp/concurrency/timer.h: base_timer_t, set_interval, run", "AdvancedLibraryCpp/concurrency/semaphore.h: semaphore_t, lock"]}
{"id": "C167", "title": "The searches for a missing element take logarithmic time", "statement": "Each of the three searches for a missing element takes O(log n) iterations, as documented.", "quantifier": "every sequence of integers or of rationals, every factor and first element", "why_tests_cant": "tests check results, not the number of iterations", "anchors": ["AdvancedLibraryCpp/classic/sequences/missing_element.h: find_missing_arithmetic_in_sorted, find_missing_geometric_in_sorted (both overloads)"]}
{"id": "C168", "title": "The dynamic programming is effective", "statement": "sum_of_subsets computes no sum twice for the same position: it makes at most 1 + 2 n (s + 1) calls for n integers whose absolute values sum up to s, and calls with a common memo share their work. max_length_of_sum stores at most n sums.", "quantifier": "every sequence of integers, every wanted sum, both orders of evaluation, every series of calls with one memo", "why_tests_cant": "tests check results, not the number of calls", "anchors": ["AdvancedLibraryCpp/classic/sequences/subset.h: sum_of_subsets (both overloads)", "AdvancedLibraryCpp/classic/sequences/subarray.h: max_length_of_sum"]}
{"id": "C169", "title": "Fenwick trees take logarithmic time", "statement": "update and prefix sums visit at most as many cells as the length has binary digits (floor(log2 n) + 1), query at most twice and set_value at most three times as many; building visits at most n (floor(log2 n) + 1) cells.", "quantifier": "every length up to 2^64 - 1, every position and value, every array content", "why_tests_cant": "tests check results, not the number of cells visited", "anchors": ["AdvancedLibraryCpp/structures/fenwick_tree.h: _update, _range_query (both overloads), _build, update, query, set_value"]}
{"id": "C170", "title": "Segment trees take logarithmic time", "statement": "query and query_update on n elements visit O(log n) nodes (at most 4 log2 n - 3), whatever was called before.", "quantifier": "every lawful transform, every history of calls, every interval", "why_tests_cant": "tests check results, not the number of nodes visited", "anchors": ["AdvancedLibraryCpp/structures/segment_tree.h: _range_query, _range_update, query, query_update"]}
{"id": "C171", "title": "AVL trees take logarithmic time", "statement": "contains, insert and remove visit O(log n) nodes of a tree with n elements, and remove_all, as documented, as many for each value it removes (and once more).", "quantifier": "every history of insertions and removals, every value", "why_tests_cant": "tests check results, not the number of nodes visited", "anchors": ["AdvancedLibraryCpp/structures/binary_tree.h: avl_tree_t contains, insert, remove, remove_all, leftmost"]}
{"id": "C172", "title": "The linear searches and sums take linear time", "statement": "find_missing_sequential_range, find_not_common_element, find_non_repeated_element, max_length_of_sum and max_sum_of take O(n) steps, as documented, with all the iterators they accept.", "quantifier": "every sequence, every bound, width and required sum, random access iterators and iterators that can only be incremented", "why_tests_cant": "tests check results, not the number of steps, and use vectors", "anchors": ["AdvancedLibraryCpp/classic/sequences/missing_element.h: find_missing_sequential_range, find_not_common_element, find_non_repeated_element", "AdvancedLibraryCpp/classic/sequences/subarray.h: max_length_of_sum, max_sum_of"]}
{"id": "C173", "title": "gcd and divisors_of are fast", "statement": "gcd makes at most 93 calls on 64-bit numbers (at most 2 log2 b + 3 in general), and divisors_of takes at most sqrt(n) rounds of its loop.", "quantifier": "every pair of numbers, every n", "why_tests_cant": "tests check results, not the number of steps", "anchors": ["AdvancedLibraryCpp/tools/divisors.h: gcd, divisors_of"]}
{"id": "C174", "title": "Command managers are values", "statement": "Command managers may be copied, assigned, passed as rvalues and destroyed in any order: every stored command is deleted exactly once.", "quantifier": "every program with any number of managers and distinct commands", "why_tests_cant": "tests never copy a manager; a double delete may go unnoticed", "anchors": ["AdvancedLibraryCpp/structures/command.h: destructor (implicit copy constructor and assignment), store, redo, dispose, clip"]}
{"id": "C175", "title": "Message queue reacts without delay", "statement": "A message that was received while the worker is idle is handled, and stop() ends an idle worker, without waiting for the end of the 100 ms that the worker sleeps at a time.", "quantifier": "every schedule of the worker and any number of clients, every container", "why_tests_cant": "tests wait long enough; the lost notification needs an exact moment", "anchors": ["AdvancedLibraryCpp/concurrency/message_queue.h: run, receive_message, stop, discard_messages"]}
{"id": "C176", "title": "Message queue survives exceptions", "statement": "When copying or comparing messages or a callback throws, the call fails without effect, the mutex is released and the queue goes on.", "quantifier": "every schedule, every point where an exception may be thrown", "why_tests_cant": "tests use messages and callbacks that do not throw", "anchors": ["AdvancedLibraryCpp/concurrency/message_queue.h: receive_message, send, run, pop", "AdvancedLibraryCpp/concurrency/thread.h: start"]}
{"id": "C177", "title": "Semaphore notifications are enough", "statement": "No thread sleeps beside a free resource for which nobody is coming: while a thread waits in lock(), as many threads as there are free resources have been woken or are about to be notified, so none depends on its time-out.", "quantifier": "every number of resources and threads, every schedule with any calls of lock, try_lock, unlock and set_available_resources", "why_tests_cant": "tests see the resource acquired in the end, after a time-out or not", "anchors": ["AdvancedLibraryCpp/concurrency/semaphore.h: lock, unlock, set_available_resources"]}
{"id": "C178", "title": "Timer survives exceptions", "statement": "An exception of on_start, on_interval or on_stop does not end the program, and a stop() that is left by an exception of on_stop has stopped the timer: on_interval is not called any more and the sleeping thread was woken.", "quantifier": "every schedule, every callback that throws", "why_tests_cant": "tests use callbacks that do not throw", "anchors": ["AdvancedLibraryCpp/concurrency/timer.h: run, stop, safe_delete, destructor", "AdvancedLibraryCpp/concurrency/thread.h: start"]}
{"id": "C179", "title": "Stopping a message queue ends its worker", "statement": "Once _stopped is set, the worker of a message queue leaves run() after boundedly many steps of its own, whatever the other threads do: at most 15, 8 for each message in the container or received later, one for each wake-up and 15 for each further start(). It is never stuck on the way, except behind a client that holds the mutex of the container and can release it. A producer that never pauses keeps it busy for ever.", "quantifier": "every container, message type, schedule of any number of clients, and every state in which stop() has been called", "why_tests_cant": "Termination under every interleaving cannot be tested; a test sees one schedule and a time-out.", "anchors": ["AdvancedLibraryCpp/concurrency/message_queue.h: run, stop, pop, clear, receive_message"]}
{"id": "C180", "title": "find() compresses exactly the path it walks", "statement": "With compression, find(x) makes every set on the path from x a direct child of the root it returns, so that a later find of any of them makes at most one recursive call, and changes no other parent; without compression it changes nothing.", "quantifier": "every history of the union set, every existing x", "why_tests_cant": "the parents are private; a test sees only the root, which is right without any compression", "anchors": ["AdvancedLibraryCpp/structures/union_set.h: _find, find", "AdvancedLibraryCpp/structures/union_find.h: _find"]}
{"id": "C181", "title": "Stopping a timer ends its thread", "statement": "Once a stop() has taken effect (C101), the timer thread ends after at most 14 further steps of its own, whatever the other threads, clocks and callbacks do; it falls asleep at most once more, and is never stuck on the way except behind a destructor that holds the mutex and can go on, or in the user's callback.", "quantifier": "every interval, schedule, clock adjustment and callback result, every state in which a stop() has taken effect", "why_tests_cant": "Termination under every interleaving cannot be tested; a test sees one schedule and a time-out.", "anchors": ["AdvancedLibraryCpp/concurrency/timer.h: run, stop"]}
{"id": "C182", "title": "AVL parent() refers to an existing node", "statement": "After every sequence of calls on an avl_tree, the parent stored in each node (answered by parent()) is a node that is still in the tree, so that following it does not read freed memory.", "quantifier": "For all element types with a total order, all sequences of insertions, removals, clears and switches of duplicates, and all nodes of the resulting tree.", "why_tests_cant": "A link dangles only after a removal of a node with one child that has children itself, which needs a tree already out of balance; the tests never follow parent() and reading freed memory need not fail.", "anchors": ["AdvancedLibraryCpp/structures/binary_tree.h: rotate_right, rotate_left, remove, insert", "AdvancedLibraryCpp/structures/binary_tree.h: parent"]}
{"id": "C183", "title": "AVL trees that are copied stay shallow", "statement": "When values are only inserted (no removals, no duplicates) and the program goes on with a copy of the tree now and then, the depth of the tree stays at most logarithmic in the number of its elements.", "quantifier": "For all sequences of insertions and copies, from an empty tree; one constant for all of them.", "why_tests_cant": "A copy answers all queries rightly, so tests of copies pass; the lost heights show only in the shape of the tree after many copies and insertions.", "anchors": ["AdvancedLibraryCpp/structures/binary_tree.h: binary_node_t::operator=, rotate_if_needed, insert", "AdvancedLibraryCpp/structures/tree.h: tree_t copy constructor"]}
{"id": "C184", "title": "union_find works for elements that are not equal to themselves", "statement": "Whatever the == of the elements (NaN is unequal to itself, -0.0 equal to 0.0): an inserted element exists, is found by find_by_elem, and is not inserted a second time.", "quantifier": "every symmetric and transitive equality of elements, every history of calls by element", "why_tests_cant": "tests use integers as elements; the hash map answers silently", "anchors": ["AdvancedLibraryCpp/structures/union_find.h: insert, exists, same_set, find_by_elem, join_sets, size_of"]}
{"id": "C185", "title": "Semaphore waiters are overtaken a bounded number of times", "statement": "For a given number of resources and threads there is a bound on how many resources are handed to other threads while one thread waits in lock().", "quantifier": "every number of resources and threads, every schedule in which each notification wakes a waiting thread and no wait times out", "why_tests_cant": "starvation needs the waiting thread to lose every race for the mutex; a test sees a few rounds of one schedule", "anchors": ["AdvancedLibraryCpp/concurrency/semaphore.h: lock, unlock, try_lock"]}
{"id": "C186", "title": "union_set calls take almost constant time on the average", "statement": "With path compression, which is the default, m calls that end with n sets activate _find at most m*(2 log* n + 6) + n*(log* n + 1) times in all, where log* is the iterated logarithm, at most 4 for every n that fits a size_t.", "quantifier": "every history of find, same, join, size_of and resize from any capacity, every order in which the compiler evaluates function arguments; for union_find_t every history of calls with elements", "why_tests_cant": "a single find may be logarithmic; the bound is about all histories and needs union by size and compression together, while every answer is right without either", "anchors": ["AdvancedLibraryCpp/structures/union_set.h: _find, _join, find, same, join, size_of, resize", "AdvancedLibraryCpp/structures/union_find.h: insert, find_by_elem, same_set, join_sets, size_of"]}
{"id": "C187", "title": "heap_t height_of() is the level of a position", "statement": "height_of(pos) is 1 for the root and one more for the children of a position than for the position.", "quantifier": "every size_t position, every nearest rounding of the three floating point operations", "why_tests_cant": "the function has no test; at the left edge of a level and above 2^50 it is off by one, in between it is right", "anchors": ["AdvancedLibraryCpp/structures/heap.h: height_of"]}
{"id": "C188", "title": "Heaps survive exceptions", "statement": "A call of heap_t that throws (position out of range, length error, allocation, or the move of an element) leaves the elements as they were.", "quantifier": "every heap and capacity, every size_t position, every point where an exception may be thrown", "why_tests_cant": "needs huge positions, a failing allocation or elements whose moves throw; heap_t has no tests", "anchors": ["AdvancedLibraryCpp/structures/heap.h: set_left, set_right, set_root, swap, swap_with_left_child, swap_with_right_child"]}
{"id": "C189", "title": "heap_t set_left, set_right and set_root accept references into the heap", "statement": "When the argument is an element of the heap itself, the value it had is stored at the child position, as any other value would be.", "quantifier": "every heap, capacity, child position and element", "why_tests_cant": "reading a dangling reference need not fail; it depends on the capacity", "anchors": ["AdvancedLibraryCpp/structures/heap.h: set_left, set_right, set_root"]}
{"id": "C190", "title": "head() and tail() of an empty heap are reported", "statement": "head() and tail() of an empty heap_t throw an exception instead of being undefined.", "quantifier": "every heap", "why_tests_cant": "undefined behaviour need not show in a test; heap_t has no tests", "anchors": ["AdvancedLibraryCpp/structures/heap.h: head, tail"]}
{"id": "C191", "title": "Fenwick trees of floating point numbers return what was stored in them", "statement": "A Fenwick tree of doubles built from finite numbers returns each of them, and after set_value(p, v) position p has the value v; the results of updates and queries are the sums of the elements.", "quantifier": "every array of doubles, every sequence of calls, IEEE 754 double precision with round to nearest even", "why_tests_cant": "tests use small whole numbers, for which all sums are exact; elements of very different magnitude lose the smaller one", "anchors": ["AdvancedLibraryCpp/structures/fenwick_tree.h: fenwick_tree_t, query, set_value, update, resize, operator[]", "AdvancedLibraryCpp/tools/math_operation.h: sum_t"]}
{"id": "C192", "title": "make_unique leaks nothing", "statement": "A call whose arguments are made by make_unique either gets one owned object per argument, or throws and leaves the memory as it was.", "quantifier": "every list of arguments in every order of evaluation, every failure of an allocation or constructor", "why_tests_cant": "a leak is invisible to a test of the result, and the constructor that throws has to be the right one of several", "anchors": ["AdvancedLibraryCpp/tools/memory.h: make_unique"]}
{"id": "C193", "title": "Fenwick product trees over class types return the product", "statement": "A multiplication Fenwick tree whose element type is a class (big integer, fraction, matrix) returns the product of the addressed elements, as for scalar types.", "quantifier": "every commutative class type, default value, division, conversion to bool, input and bounds", "why_tests_cant": "the tests instantiate scalar types only, for which null_value() is another overload", "anchors": ["AdvancedLibraryCpp/tools/math_operation.h: multiplication_t::null_value", "AdvancedLibraryCpp/structures/fenwick_tree.h: _build, _range_query"]}
{"id": "C194", "title": "Command destructors may use their manager", "statement": "Whatever the destructors of the commands call on the manager, every command that store has got is deleted exactly once, the newest 1024 are kept, and the program ends.", "quantifier": "every program, every assignment of calls to destructors, every nesting of deletions", "why_tests_cant": "needs commands that call back while clip or dispose is in its loop; command.h has no tests", "anchors": ["AdvancedLibraryCpp/structures/command.h: ~command_manager_t, store, dispose, clip, undo"]}
{"id": "C195", "title": "Segment tree queries join from left to right", "statement": "A query returns the left-to-right join of the addressed elements for every join operation, also for one that rounds or is not associative.", "quantifier": "every join operation, input, sequence of queries and bounds, heap large enough", "why_tests_cant": "tests use sums and minima of small numbers, for which the brackets do not matter", "anchors": ["AdvancedLibraryCpp/structures/segment_tree.h: query, _range_query, build, range_operation_t::join"]}
{"id": "C196", "title": "max_sum_of over floating point numbers", "statement": "max_sum_of of doubles is the greatest of the (left-to-right, rounded) sums of the subarrays; for finite numbers it is within rounding of the greatest exact sum.", "quantifier": "every sequence of doubles, also with infinities and NaN, IEEE 754 double precision with round to nearest even", "why_tests_cant": "rounding, overflow to infinity and NaN do not occur in the tests, which use small whole numbers", "anchors": ["AdvancedLibraryCpp/classic/sequences/subarray.h: max_sum_of"]}
{"id": "C197", "title": "Variadic functors over floating point numbers", "statement": "sum_t of several doubles is their sum from left to right; minimum_t and maximum_t return the least and greatest of the arguments that are numbers.", "quantifier": "every argument list of doubles, also with infinities and NaN, IEEE 754 double precision with round to nearest even", "why_tests_cant": "tests use small whole numbers, for which neither the order of additions nor NaN matters", "anchors": ["AdvancedLibraryCpp/tools/math_operation.h: sum_t, minimum_t, maximum_t"]}
{"id": "C198", "title": "Segment tree minima and maxima of floating point numbers", "statement": "In a segment tree that joins doubles with std::min or std::max, a query returns the least or greatest of the addressed elements that are numbers.", "quantifier": "every input of doubles, also with infinities and NaN, every query, heap large enough", "why_tests_cant": "tests have no NaN; where one is harmful depends on how the query is cut into nodes", "anchors": ["AdvancedLibraryCpp/structures/segment_tree.h: query, _range_query, build", "AdvancedLibraryCpp/tools/math_operation.h: minimum_t, maximum_t"]}
{"id": "C199", "title": "sum_of_subsets over floating point numbers", "statement": "sum_of_subsets of finite doubles returns the number of subsets whose exact sum is the wanted one.", "quantifier": "every sequence of doubles and wanted sum, also with infinities and NaN, both orders of evaluation, IEEE 754 double precision", "why_tests_cant": "rounding does not occur for the small whole numbers of the tests, nor does NaN, for which the memo is useless", "anchors": ["AdvancedLibraryCpp/classic/sequences/subset.h: sum_of_subsets"]}
{"id": "C200", "title": "CSV files with Windows line endings", "statement": "A CSV file whose lines end with \\r\\n gives the same rows as the same file with lines that end with \\n.", "quantifier": "every file, separator, descriptor and number of skipped lines; systems that do not translate line endings; conversions that ignore a \\r at the end", "why_tests_cant": "the test reads one file with Unix line endings", "anchors": ["AdvancedLibraryCpp/tools/read_csv.h: read_csv_file, generic_field_t"]}
{"id": "C201", "title": "LRU cache reserves room for its capacity", "statement": "set_capacity is defined for every capacity and reserves room for all elements of the cache, so that the map is never rehashed while the cache is filled.", "quantifier": "every way to construct the cache, every sequence of calls; every std::log2 accurate to one part in 2^40 and every hash map that has the room that it was asked for", "why_tests_cant": "a rehash is not visible in the results, and the overflow of the conversion needs capacities near 2^59", "anchors": ["AdvancedLibraryCpp/structures/cache.h: set_capacity, cache_t(size_t), cache_t(), add, operator[]"]}
{"id": "C202", "title": "Segment trees of signed integers overflow only if an answer does", "statement": "If the sum (or product) of every section of the input fits the integer type, neither build nor any query of a segment tree overflows, and every answer is exact; otherwise some query overflows.", "quantifier": "every input, associative operation, range of the type and sequence of queries, heap large enough", "why_tests_cant": "an overflow in an inner node is not visible in the answers of small tests, and is undefined behaviour", "anchors": ["AdvancedLibraryCpp/structures/segment_tree.h: build, query, _range_query"]}
{"id": "C203", "title": "Segment trees can be walked from head() with lower_bound() and upper_bound()", "statement": "head() is the node of the whole array, and lower_bound() and upper_bound() of a node are the nodes of its halves; all three may always be called.", "quantifier": "every transform that keeps the intervals of nodes, every history of calls, every path down the tree, heap large enough", "why_tests_cant": "tests do not call the accessors; that a call for a leaf reads outside the heap depends on the number of elements", "anchors": ["AdvancedLibraryCpp/structures/segment_tree.h: head, lower_bound, upper_bound"]}
{"id": "C204", "title": "References to cached elements stay valid while the element is cached", "statement": "A reference or iterator to an element of an LRU cache may be read as long as the element stays in the cache.", "quantifier": "every reachable cache, element and sequence of calls; loops over the cache that call find", "why_tests_cant": "reading a freed list node often still gives the old value, and no test keeps a reference across calls", "anchors": ["AdvancedLibraryCpp/structures/cache.h: move_to_front, find, operator[], begin, add, remove, clip"]}
{"id": "C205", "title": "References to values in an AVL tree stay valid until the value is removed", "statement": "A reference to a value in an AVL tree reads that value until a call removes the value from the tree; inserting and removing other values does not affect it.", "quantifier": "every program over any number of trees, every node, every call", "why_tests_cant": "reading a deleted node often still gives the old value, and no test keeps a reference across calls", "anchors": ["AdvancedLibraryCpp/structures/binary_tree.h: insert, remove, remove_all, leftmost", "AdvancedLibraryCpp/structures/tree.h: get, set_value"]}
{"id": "C206", "title": "Fenwick products of signed integers do not overflow", "statement": "If every product of neighbouring elements fits the signed element type before and after each call, no call on a Fenwick tree of products overflows, and every answer is that of exact integers.", "quantifier": "every history of calls that divides by no zero, every signed type", "why_tests_cant": "the overflow needs the least value of the type and the element -1", "anchors": ["AdvancedLibraryCpp/structures/fenwick_tree.h: _update, _query, _range_query, set_value, build, query, update", "AdvancedLibraryCpp/tools/math_operation.h: multiplication_t, division_t"]}
{"id": "C207", "title": "Recursion in AVL trees takes a logarithmic stack", "statement": "The recursive functions of an AVL tree (insert, remove, remove_all, contains, the traversals, copying, clear and the destructor) nest a number of calls that is at most logarithmic in the number of elements.", "quantifier": "every history of insertions and removals, every size of the stack, every tree", "why_tests_cant": "a stack overflow needs hundreds of thousands of nested calls; tests build small trees, and insertions alone keep the tree flat", "anchors": ["AdvancedLibraryCpp/structures/binary_tree.h: insert, remove, contains, leftmost, operator=, clear, delete_child, in_order, pre_order, pos_order"]}
{"id": "C208", "title": "Recursion in segment trees takes a logarithmic stack", "statement": "Building, querying and updating a segment tree of at most 2^d elements nests at most d + 1 calls; 65 nested calls are enough for every tree.", "quantifier": "every transform that keeps the intervals of nodes, every history of calls, every size of the stack, heap large enough", "why_tests_cant": "the depth of the recursion is not visible in a test unless the stack overflows", "anchors": ["AdvancedLibraryCpp/structures/segment_tree.h: build, _range_query, _range_update, query, query_update"]}
{"id": "C209", "title": "sum_of_subsets nests one call for each element", "statement": "sum_of_subsets of n elements nests exactly n + 1 calls (fewer where the memo has the answer), and gives the right count on every stack with room for them.", "quantifier": "every sequence, sum, memo and size of the stack, both evaluation orders", "why_tests_cant": "a stack overflow needs a sequence of many thousands of elements", "anchors": ["AdvancedLibraryCpp/classic/sequences/subset.h: sum_of_subsets"]}
{"id": "C210", "title": "Recursion in n-ary trees nests as many calls as the tree has levels", "statement": "The destructor, clear, in_order, pre_order and pos_order of an n-ary tree nest at most as many calls as there are nodes on the longest path from the root, and exactly as many unless the callback stops the traversal.", "quantifier": "every tree, callback and size of the stack", "why_tests_cant": "a stack overflow needs a tree of many thousands of levels", "anchors": ["AdvancedLibraryCpp/structures/tree.h: ~tree_node_t, clear, in_order, pre_order, pos_order"]}
{"id": "C211", "title": "CSV fields in double quotes", "statement": "Reading a CSV file in which fields with separators, quotes or newlines are written in double quotes (RFC 4180) gives back the texts of the fields.", "quantifier": "every table of texts, every separator", "why_tests_cant": "the example file has no quotes; that rows are lost silently depends on the number of columns", "anchors": ["AdvancedLibraryCpp/tools/read_csv.h: read_csv_file"]}
{"id": "C212", "title": "Few nodes wait in the searches of a tree", "statement": "In depth_first_search of a tree with L levels whose nodes have at most m children at most (m - 1)(L - 1) + 1 nodes wait in the stack, and in breadth_first_search at most as many wait in the queue as two neighbouring levels have; in neither do more nodes wait than the tree has leaves.", "quantifier": "every tree and callback", "why_tests_cant": "the size of the containers is not visible from outside", "anchors": ["AdvancedLibraryCpp/structures/tree.h: depth_first_search, breadth_first_search"]}
{"id": "C213", "title": "from_string for enumerations of every underlying type", "statement": "from_string ends and gives the first value from minimum below maximum with the given name, or maximum if there is none, for enumerations over signed or unsigned types with up to 64 bits and for negative values; with the to_string of the documentation and the default bounds every value below MAX comes back and every other one gives MAX.", "quantifier": "every underlying type, names, bounds and string", "why_tests_cant": "the test has one enumeration over int without negative values; the loop converts to size_t and back", "anchors": ["AdvancedLibraryCpp/tools/enum_factory.h: from_string"]}
{"id": "C214", "title": "next_random for ranges of signed integers", "statement": "next_random<int_type>(start, end) for a signed int_type and start <= end is defined and returns a number between start and end inclusive; every number of the range can be drawn.", "quantifier": "every signed type no wider than the result_type of the generator, every range, every output of the generator", "why_tests_cant": "the tests have no negative bounds; an undefined distribution still returns some number", "anchors": ["AdvancedLibraryCpp/tools/random.h: next_random"]}
{"id": "C215", "title": "sum_of_subsets of unsigned numbers", "statement": "sum_of_subsets of unsigned numbers returns, modulo 2^64, the number of subsets of the positions whose elements add up to sum.", "quantifier": "every width of the type, every sequence and sum, both evaluation orders", "why_tests_cant": "the tests use sums that are small; a difference that wraps around is silent", "anchors": ["AdvancedLibraryCpp/classic/sequences/subset.h: sum_of_subsets"]}
{"id": "C216", "title": "max_sum_of of unsigned numbers", "statement": "max_sum_of of unsigned numbers returns the greatest sum of a non-empty contiguous subarray if that fits the type, and 0 for the empty sequence.", "quantifier": "every width of the type and every sequence", "why_tests_cant": "the tests have signed elements; a sum that wraps around is silent", "anchors": ["AdvancedLibraryCpp/classic/sequences/subarray.h: max_sum_of"]}
{"id": "C217", "title": "max_length_of_sum of unsigned numbers", "statement": "For unsigned numbers at least as wide as int a positive answer of max_length_of_sum is the length of a contiguous subarray with the required sum, and the answer is 0 exactly when no non-empty subarray has it.", "quantifier": "every width of the type from that of int, every sequence and required sum", "why_tests_cant": "the tests have small sums; a sum that wraps around to the required one is silent", "anchors": ["AdvancedLibraryCpp/classic/sequences/subarray.h: max_length_of_sum"]}
{"id": "C218", "title": "max_length_of_sum of narrow unsigned numbers", "statement": "For unsigned numbers narrower than int a positive answer of max_length_of_sum is the length of a contiguous subarray with the required sum, and the answer is 0 exactly when no non-empty subarray has it.", "quantifier": "every narrower width of the type, every sequence and required sum", "why_tests_cant": "the difference is promoted to int and does not wrap around as the sums do; the tests have no such type", "anchors": ["AdvancedLibraryCpp/classic/sequences/subarray.h: max_length_of_sum"]}
