{"id": "C01", "title": "dfs_preorder yields the preorder sequence and then None forever", "statement": "Calling next() repeatedly on dfs_preorder()/dfs_preorder_iter()/dfs_preorder_iter_mut() of any tree returns, at the n-th call, exactly the n-th value of the recursive preorder listing (node, then its children's listings left to right); every call past the last node returns None.", "quantifier": "for every finite tree (any node type implementing the traits, general or binary), every n", "why_tests_cant": "tests fix one eleven-node tree; correctness of the explicit stack machine needs an invariant over every shape and every number of calls", "anchors": ["tree_iterators_rs/src/dfs_preorder_iterators/mod.rs: dfs_preorder_next!", "tree_iterators_rs/src/dfs_preorder_iterators/owned.rs: OwnedDFSPreorderIterator", "tree_iterators_rs/src/prelude.rs: OwnedTreeNode::dfs_preorder"]}
{"id": "C02", "title": "dfs_postorder yields the postorder sequence and then None forever", "statement": "The n-th call of next() on dfs_postorder()/_iter()/_iter_mut() returns the n-th value of the recursive postorder listing (children's listings left to right, then the node); past the end it is None forever.", "quantifier": "for every finite tree, every n", "why_tests_cant": "needs an invariant tying two stacks together on all shapes; sample trees cannot exclude a mis-pop on another shape", "anchors": ["tree_iterators_rs/src/dfs_postorder_iterators/mod.rs: dfs_postorder_next!", "tree_iterators_rs/src/prelude.rs: OwnedTreeNode::dfs_postorder"]}
{"id": "C03", "title": "dfs_inorder yields the inorder sequence and then None forever", "statement": "The n-th call of next() on dfs_inorder()/_iter()/_iter_mut() of a binary tree returns the n-th value of the recursive inorder listing (left, node, right); past the end it is None forever.", "quantifier": "for every finite binary tree, every n", "why_tests_cant": "the machine decides what to do by comparing the lengths of two stacks; one example tree exercises a handful of these comparisons", "anchors": ["tree_iterators_rs/src/dfs_inorder_iterators/mod.rs: dfs_inorder_next!", "tree_iterators_rs/src/prelude.rs: OwnedBinaryTreeNode::dfs_inorder"]}
{"id": "C04", "title": "bfs yields level order and then None forever", "statement": "The n-th call of next() on bfs()/bfs_iter()/bfs_iter_mut() returns the n-th value of the level-order listing: all nodes at depth 0, then depth 1, and so on, left to right inside each depth; past the end it is None forever.", "quantifier": "for every finite tree, every n", "why_tests_cant": "level order is a global property of the queue contents; unbounded depth and width", "anchors": ["tree_iterators_rs/src/bfs_iterators/mod.rs: bfs_next!", "tree_iterators_rs/src/prelude.rs: OwnedTreeNode::bfs"]}
{"id": "C05", "title": "every traversal visits every node exactly once", "statement": "Preorder, postorder, in-order and breadth-first traversals of the same tree yield permutations of one another, and each yields every node (position) of the tree exactly once: none skipped, none repeated.", "quantifier": "for every finite tree and every pair of traversal orders", "why_tests_cant": "an equality of multisets over all shapes, not checkable by examples", "anchors": ["tree_iterators_rs/src/prelude.rs: OwnedTreeNode::{bfs,dfs_preorder,dfs_postorder}", "tree_iterators_rs/src/prelude.rs: OwnedBinaryTreeNode::dfs_inorder"]}
{"id": "C06", "title": "preorder attach_ancestors yields the root-to-node list of each node in preorder", "statement": "dfs_preorder().attach_ancestors() yields, at the n-th next(), the slice of values on the path from the root to the n-th node in preorder, root first and the node itself last; past the end it yields None, for any number of further calls.", "quantifier": "for every finite tree, every n", "why_tests_cant": "slice contents are produced by incremental pushes and pops; correctness is an invariant over the entire history", "anchors": ["tree_iterators_rs/src/dfs_preorder_iterators/mod.rs: preorder_ancestors_streaming_iterator_impl!"]}
{"id": "C07", "title": "postorder attach_ancestors yields the root-to-node list of each node in postorder", "statement": "dfs_postorder().attach_ancestors() yields, at the n-th next(), the root-to-node slice of the n-th node in postorder; past the end None, for any number of further calls.", "quantifier": "for every finite tree, every n", "why_tests_cant": "incremental stack whose correctness is an invariant over the whole history", "anchors": ["tree_iterators_rs/src/dfs_postorder_iterators/mod.rs: postorder_ancestors_streaming_iterator_impl!"]}
{"id": "C08", "title": "inorder attach_ancestors yields the root-to-node list of each node in order", "statement": "dfs_inorder().attach_ancestors() yields, at the n-th next(), the root-to-node slice of the n-th node in order; past the end None, for any number of further calls.", "quantifier": "for every finite binary tree, every n", "why_tests_cant": "a three-state status stack per ancestor; unbounded depth", "anchors": ["tree_iterators_rs/src/dfs_inorder_iterators/mod.rs: dfs_inorder_ancestors_streaming_iterator_impl!"]}
{"id": "C09", "title": "bfs attach_ancestors yields the root-to-node list of each node in level order", "statement": "bfs().attach_ancestors() yields, at the n-th next(), the root-to-node slice of the n-th node in level order, never panics and always terminates, up to and including the call that first returns None.", "quantifier": "for every finite tree, every n up to the number of nodes", "why_tests_cant": "the implementation rotates a cache of partially moved-out nodes; its correctness depends on an intricate invariant between the cache, the stack and the queue", "anchors": ["tree_iterators_rs/src/bfs_iterators/mod.rs: bfs_ancestors_streaming_iterator_impl!", "tree_iterators_rs/src/bfs_iterators/mod.rs: bfs_ancestors_advance_iterator!", "tree_iterators_rs/src/bfs_iterators/mod.rs: TreeNodeVecDeque"]}
{"id": "C10", "title": "preorder attach_context reports path, ancestors and children of each node in preorder", "statement": "dfs_preorder().attach_context() visits nodes in preorder; at each node path() is the list of child indexes from the root, ancestors() is the root-to-node value list, children() is the node's own child collection and depth() is the number of edges from the root. Past the end it yields None forever and never panics.", "quantifier": "for every finite tree whose nodes have fewer than 2^64 children, every n", "why_tests_cant": "path is maintained with a wrapping usize::MAX sentinel; correctness for every shape is an induction", "anchors": ["tree_iterators_rs/src/dfs_preorder_iterators/mod.rs: preorder_context_streaming_iterator_impl!", "tree_iterators_rs/src/tree_context.rs: TreeContext::{path,ancestors,children,depth}"]}
{"id": "C11", "title": "binary preorder attach_context uses slot indexes (left 0, right 1)", "statement": "For binary trees dfs_preorder().attach_context() reports paths in which every left step is 0 and every right step is 1 (also when the left child is absent), with the right ancestors and the two child slots, in preorder; past the end None forever.", "quantifier": "for every finite binary tree, every n", "why_tests_cant": "absent left children shift indexes; all combinations of missing slots must be covered", "anchors": ["tree_iterators_rs/src/dfs_preorder_iterators/mod.rs: preorder_binary_context_streaming_iterator_impl!"]}
{"id": "C12", "title": "postorder attach_context reports path and ancestors (and children unless owned) in postorder", "statement": "dfs_postorder().attach_context() visits nodes in postorder; path(), ancestors() and depth() describe the node as in C10 (slot indexes for binary trees); the borrowed variants also expose the node's children.", "quantifier": "for every finite tree (general or binary) whose nodes have fewer than 2^64 children, every n", "why_tests_cant": "path, ancestor and child stacks are kept by separate code paths per ownership; agreement for all shapes needs an invariant", "anchors": ["tree_iterators_rs/src/dfs_postorder_iterators/owned.rs: OwnedDFSPostorderIteratorWithContext::advance", "tree_iterators_rs/src/dfs_postorder_iterators/borrow.rs: BorrowedDFSPostorderIteratorWithContext::advance", "tree_iterators_rs/src/dfs_postorder_iterators/owned.rs: OwnedBinaryDFSPostorderIteratorWithContext::advance"]}
{"id": "C13", "title": "inorder attach_context reports path and ancestors (and children unless owned) in order", "statement": "dfs_inorder().attach_context() visits nodes in order; path() is the list of slot indexes from the root, ancestors() the root-to-node values; the borrowed variants also expose the node's two child slots.", "quantifier": "for every finite binary tree, every n", "why_tests_cant": "path is derived from a status stack; unbounded depth", "anchors": ["tree_iterators_rs/src/dfs_inorder_iterators/owned.rs: OwnedDFSInorderIteratorWithContext::advance", "tree_iterators_rs/src/dfs_inorder_iterators/borrow.rs: BorrowedDFSInorderIteratorWithContext::advance"]}
{"id": "C14", "title": "bfs attach_context reports path, ancestors and children of each node in level order", "statement": "bfs().attach_context() visits nodes in level order; at each node path(), ancestors(), children() and depth() describe the node as in C10 (slot indexes for binary trees). It never panics, always terminates and yields None forever past the end.", "quantifier": "for every finite tree (general or binary), every n", "why_tests_cant": "same cache rotation as C09 plus a path counter reset per parent", "anchors": ["tree_iterators_rs/src/bfs_iterators/mod.rs: bfs_context_streaming_iterator_impl!", "tree_iterators_rs/src/bfs_iterators/mod.rs: bfs_context_advance_iterator!", "tree_iterators_rs/src/bfs_iterators/mod.rs: bfs_context_binary_streaming_iterator_impl!"]}
{"id": "C15", "title": "context path leads back to the node", "statement": "For every context yielded by an attach_context() iterator, at_path(path()) on the original tree returns the node being visited: its value is the last entry of ancestors(), its children are children(), and depth() equals the length of path().", "quantifier": "for every finite tree, every traversal order, every yielded context", "why_tests_cant": "relates two independent APIs on all trees and all positions", "anchors": ["tree_iterators_rs/src/prelude.rs: OwnedTreeNode::at_path", "tree_iterators_rs/src/prelude.rs: OwnedBinaryTreeNode::at_path", "tree_iterators_rs/src/tree_context.rs: TreeContext::path"]}
{"id": "C16", "title": "at_path follows child indexes exactly", "statement": "at_path/at_path_ref/at_path_mut returns the descendant reached by following the given child indexes; the empty path returns the root; the result is None exactly when some index is out of range (for binary trees: not 0/1 or an empty slot). On collections the first index selects the tree and the empty path gives None.", "quantifier": "for every tree or collection and every path", "why_tests_cant": "all paths, valid and invalid, of unbounded length", "anchors": ["tree_iterators_rs/src/prelude.rs: OwnedTreeNode::at_path", "tree_iterators_rs/src/prelude.rs: OwnedBinaryTreeNode::at_path", "tree_iterators_rs/src/prelude.rs: OwnedIntoIteratorOfTrees::at_path"]}
{"id": "C17", "title": "leaves() before any next(): depth-first variants yield exactly the leaves left to right", "statement": "dfs_preorder().leaves(), dfs_postorder().leaves() and dfs_inorder().leaves(), called before iterating, yield exactly the childless nodes from left to right and then None forever.", "quantifier": "for every finite tree, every n", "why_tests_cant": "3.5.1 fixed a shape-dependent bug here; only a proof covers every shape", "anchors": ["tree_iterators_rs/src/leaves_iterators/depth_first/mod.rs: dfs_postorder_leaves_next!", "tree_iterators_rs/src/dfs_preorder_iterators/owned.rs: OwnedDFSPreorderIterator::leaves", "tree_iterators_rs/src/dfs_inorder_iterators/owned.rs: OwnedDFSInorderIterator::leaves"]}
{"id": "C18", "title": "depth-first leaves() mid-traversal yields exactly the leaves not yet visited", "statement": "leaves() may be called at any point of a depth-first traversal ('safe to call at any point during iteration and will never panic'); after k calls to next() the resulting iterator yields exactly the leaves that the original iterator had not yet yielded, left to right.", "quantifier": "for every finite tree, every k, each depth-first order", "why_tests_cant": "the crate's mid-traversal tests always exhaust the iterator first, so no interrupted state is ever exercised; needs all k on all trees", "anchors": ["tree_iterators_rs/doc_files/leaves.md", "tree_iterators_rs/src/leaves_iterators/depth_first/mod.rs: dfs_postorder_leaves_next!", "tree_iterators_rs/src/dfs_preorder_iterators/owned.rs: OwnedDFSPreorderIterator::leaves", "tree_iterators_rs/src/dfs_postorder_iterators/owned.rs: OwnedDFSPostorderIterator::leaves"]}
{"id": "C19", "title": "breadth-first leaves() at any point yields exactly the remaining leaves in level order", "statement": "bfs().leaves(), called after any number k of next() calls, yields exactly the leaves not yet yielded, in level order, and then None forever.", "quantifier": "for every finite tree, every k, every n", "why_tests_cant": "quantifies over all interruption points of all trees", "anchors": ["tree_iterators_rs/src/leaves_iterators/breadth_first/mod.rs: bfs_next!, next!", "tree_iterators_rs/src/bfs_iterators/owned.rs: OwnedBFSIterator::leaves"]}
{"id": "C20", "title": "attach_ancestors().leaves() before iterating: depth-first variants yield each leaf's ancestor list left to right", "statement": "dfs_*().attach_ancestors().leaves(), called before iterating, yields the root-to-leaf slice of each leaf from left to right, then None forever.", "quantifier": "for every finite tree, every n", "why_tests_cant": "two stacks plus an item stack maintained incrementally over all shapes", "anchors": ["tree_iterators_rs/src/leaves_iterators/ancestors_depth_first/mod.rs: streaming_leaves!"]}
{"id": "C21", "title": "depth-first attach_ancestors().leaves() mid-traversal yields the remaining leaves with correct ancestors", "statement": "attach_ancestors().leaves() may be called at any point; after k advances of a depth-first iterator it yields the root-to-leaf slices of exactly the leaves not yet visited.", "quantifier": "for every finite tree, every k, each depth-first order", "why_tests_cant": "interrupted states are never exercised by the tests", "anchors": ["tree_iterators_rs/doc_files/ancestors_leaves.md", "tree_iterators_rs/src/leaves_iterators/ancestors_depth_first/mod.rs: streaming_leaves!", "tree_iterators_rs/src/dfs_preorder_iterators/owned.rs: OwnedDFSPreorderIteratorWithAncestors::leaves"]}
{"id": "C22", "title": "breadth-first attach_ancestors().leaves() at any point yields the remaining leaves with correct ancestors", "statement": "bfs().attach_ancestors().leaves(), called after any number k of advances, yields the root-to-leaf slices of exactly the leaves not yet visited, in level order, and then None forever; it never panics.", "quantifier": "for every finite tree, every k, every n", "why_tests_cant": "the cache rotation invariant must survive the conversion at every interruption point", "anchors": ["tree_iterators_rs/src/leaves_iterators/ancestors_breadth_first/mod.rs: streaming_leaves!, bfs_next!", "tree_iterators_rs/src/bfs_iterators/owned.rs: OwnedBFSIteratorWithAncestors::leaves"]}
{"id": "C23", "title": "attach_context/attach_ancestors panic exactly when the iterator has already been advanced", "statement": "attach_context() and attach_ancestors() succeed when no next() has been called and panic if next() has been called at least once, for every traversal order.", "quantifier": "for every finite tree, every number k of preceding next() calls", "why_tests_cant": "all k on all trees, including calls after exhaustion", "anchors": ["tree_iterators_rs/src/dfs_preorder_iterators/owned.rs: OwnedDFSPreorderIterator::attach_context", "tree_iterators_rs/src/dfs_inorder_iterators/owned.rs: OwnedDFSInorderIterator::attach_ancestors", "tree_iterators_rs/src/bfs_iterators/owned.rs: OwnedBFSIterator::attach_ancestors"]}
{"id": "C24", "title": "ancestor and context iterators stay finished", "statement": "Once an attach_ancestors() or attach_context() streaming iterator has yielded None, further next() calls keep yielding None and never panic, for every traversal order.", "quantifier": "for every finite tree, every number of extra calls, every order", "why_tests_cant": "states after exhaustion are unbounded in number of calls and not exercised by tests", "anchors": ["tree_iterators_rs/src/bfs_iterators/mod.rs: bfs_ancestors_streaming_iterator_impl!", "tree_iterators_rs/src/dfs_inorder_iterators/mod.rs: dfs_inorder_ancestors_streaming_iterator_impl!"]}
{"id": "C25", "title": "collection traversals are the concatenation of the trees' traversals", "statement": "bfs_each, dfs_preorder_each, dfs_postorder_each and dfs_inorder_each over a collection of trees yield the traversal of the first tree, then the second, and so on, then None forever (for collections whose iterator is fused).", "quantifier": "for every list of trees, every order, every n", "why_tests_cant": "unbounded number and shape of trees, including empty collections", "anchors": ["tree_iterators_rs/src/collection_iterators.rs: owned_collection_iterator_impl!"]}
{"id": "C26", "title": "collection attach_context prefixes the tree index to every path", "statement": "attach_context() on a collection traversal yields, for each tree in order, that tree's contexts with the index of the tree prepended to path(); ancestors never mix trees.", "quantifier": "for every list of fewer than 2^64 trees, every order, every n", "why_tests_cant": "relates collection and single-tree iterators over all lists of trees", "anchors": ["tree_iterators_rs/src/collection_iterators.rs: owned_collection_context_iterator_impl!", "tree_iterators_rs/doc_files/collection_path.md"]}
{"id": "C27", "title": "pipeline round trip", "statement": "into_pipeline().collect_tree() returns Some of a tree with the same shape and values as the source, for general and binary trees; for collections into_pipeline().trees() returns the same list of trees.", "quantifier": "for every finite tree, every list of trees", "why_tests_cant": "reconstruction from a depth/path stream must be inverse to traversal for all shapes", "anchors": ["tree_iterators_rs/src/tree_iterators/mod.rs: TreeIterator::collect_tree", "tree_iterators_rs/src/tree_iterators/mod.rs: BinaryTreeIterator::collect_tree", "tree_iterators_rs/src/tree_collection_iterators/trees.rs: Trees::next"]}
{"id": "C28", "title": "map preserves shape and applies the closure once per node in preorder", "statement": "map/map_ref/map_mut return a tree of the same shape in which each value is the closure's result for that node; a stateful closure is called exactly once per node, in preorder.", "quantifier": "for every finite tree, every (stateful) closure", "why_tests_cant": "universally quantified over closures and their state", "anchors": ["tree_iterators_rs/src/tree_iterators/map.rs: Map::next", "tree_iterators_rs/src/prelude.rs: OwnedTreeNode::map", "tree_iterators_rs/src/prelude.rs: OwnedBinaryTreeNode::map"]}
{"id": "C29", "title": "map_path passes each node's path to the closure", "statement": "map_path calls the closure on every node in preorder with the node's path in the tree as current_path would report it, and returns the tree of results.", "quantifier": "for every finite tree, every closure", "why_tests_cant": "no test calls map_path; all trees and closures", "anchors": ["tree_iterators_rs/src/tree_iterators/map_path.rs: MapPath::next", "tree_iterators_rs/src/tree_collection_iterators/map_path.rs: CollectionMapPath::next"]}
{"id": "C30", "title": "prune removes exactly the subtrees whose root satisfies the predicate", "statement": "prune(f) returns None if f holds at the root, otherwise the tree with every subtree whose root satisfies f removed and everything else kept in order (binary: in the same slot). f is called in preorder on every node that is not below a pruned node, and on no other; stateful closures see exactly this call sequence.", "quantifier": "for every finite tree, every (stateful) predicate", "why_tests_cant": "issue #15 was an asymmetric-prune crash; all trees, all predicates", "anchors": ["tree_iterators_rs/src/tree_iterators/prune.rs: Prune::next, BinaryPrune::next", "tree_iterators_rs/src/prelude.rs: OwnedTreeNode::prune"]}
{"id": "C31", "title": "prune_path gives the closure the node's path in the source tree", "statement": "prune_path(f) behaves as prune, with f also receiving the node's path in the source tree.", "quantifier": "for every finite tree whose nodes have fewer than 2^64 children, every (stateful) predicate on paths and values", "why_tests_cant": "paths after pruned siblings must still be source paths for all combinations", "anchors": ["tree_iterators_rs/src/tree_iterators/prune_path.rs: PrunePath::next, BinaryPrunePath::next", "tree_iterators_rs/src/prelude.rs: OwnedTreeNode::prune_path"]}
{"id": "C32", "title": "current_path of a pruned pipeline is the node's path in the pruned tree", "statement": "After into_pipeline().prune(f), current_path() at each yielded node is the path at which the node will be found in the collected tree (this is what a following prune_path or fold_path sees).", "quantifier": "for every finite tree, every predicate", "why_tests_cant": "depends on how many earlier siblings were pruned at each level, for all shapes", "anchors": ["tree_iterators_rs/src/tree_iterators/prune.rs: Prune::current_path", "tree_iterators_rs/src/tree_iterators/prune_path.rs: PrunePath::current_path"]}
{"id": "C33", "title": "prune_depth keeps exactly the nodes at depth at most the limit", "statement": "prune_depth(d) returns the tree containing exactly the nodes of depth at most d, in the same arrangement; it never removes the root and never panics.", "quantifier": "for every finite tree, every d", "why_tests_cant": "all depths and shapes", "anchors": ["tree_iterators_rs/src/tree_iterators/prune_depth.rs: PruneDepth::next", "tree_iterators_rs/src/prelude.rs: OwnedTreeNode::prune_depth"]}
{"id": "C34", "title": "fold is the bottom-up fold with children in order", "statement": "fold/fold_ref/fold_mut return f(results of the children in order, value) computed bottom-up (binary: results placed in the slot of the child, None for an absent child). A stateful closure is called exactly once per node, in postorder. It never panics on a non-empty pipeline.", "quantifier": "for every finite tree, every (stateful) closure", "why_tests_cant": "universally quantified over closures and shapes", "anchors": ["tree_iterators_rs/src/tree_iterators/mod.rs: TreeIterator::fold_tree", "tree_iterators_rs/src/tree_iterators/mod.rs: BinaryTreeIterator::fold_tree", "tree_iterators_rs/src/prelude.rs: OwnedTreeNode::fold"]}
{"id": "C35", "title": "fold_path gives the closure each node's path", "statement": "fold_path computes the same fold as fold, with the closure also receiving the path of the node being folded.", "quantifier": "for every finite tree whose nodes have fewer than 2^64 children, every (stateful) closure", "why_tests_cant": "the path stack is kept separately from the iterator's own path", "anchors": ["tree_iterators_rs/src/tree_iterators/mod.rs: TreeIterator::fold_path", "tree_iterators_rs/src/tree_iterators/mod.rs: BinaryTreeIterator::fold_path"]}
{"id": "C36", "title": "chained pipeline stages compose", "statement": "A chain of map_tree, prune and prune_depth stages followed by collect_tree (or fold_tree) gives the same result as applying the corresponding whole-tree transformations one after another, including the order in which the (stateful) closures of different stages are interleaved: node by node in preorder, outer stages seeing only the nodes emitted by inner ones.", "quantifier": "for every finite tree, every chain of stages, all stateful closures", "why_tests_cant": "unbounded number of stage combinations", "anchors": ["tree_iterators_rs/src/tree_iterators/map.rs: Map", "tree_iterators_rs/src/tree_iterators/prune.rs: Prune", "tree_iterators_rs/src/tree_iterators/prune_depth.rs: PruneDepth", "tree_iterators_rs/src/tree_iterators/mod.rs: TreeIteratorBase"]}
{"id": "C37", "title": "collection pipelines act tree by tree", "statement": "prune_each, prune_depth_each, map_each and fold_each over a collection give, in order, the result of the single-tree operation on each tree; trees whose root is pruned are absent from the result.", "quantifier": "for every list of trees, every (stateful) closure", "why_tests_cant": "look-ahead between trees must neither lose nor merge nodes, for all lists", "anchors": ["tree_iterators_rs/src/tree_collection_iterators/trees.rs: Trees::next", "tree_iterators_rs/src/tree_collection_iterators/fold.rs: Fold::next", "tree_iterators_rs/src/tree_collection_iterators/prune.rs: CollectionPrune::next"]}
{"id": "C38", "title": "collection fold_path and prune_path pass index-prefixed paths", "statement": "On collections, fold_path_each and prune_path_each pass to the closure the node's path prefixed with the index of its tree in the collection.", "quantifier": "for every list of fewer than 2^64 trees, every (stateful) closure", "why_tests_cant": "path bookkeeping across tree boundaries for all lists", "anchors": ["tree_iterators_rs/src/tree_collection_iterators/fold_path.rs: FoldPath::next", "tree_iterators_rs/src/tree_collection_iterators/prune_path.rs: CollectionPrunePath::next"]}
{"id": "C39", "title": "editing children through the owned preorder or bfs context redirects the traversal accordingly", "statement": "If between two advances of an owned dfs_preorder().attach_context() (or bfs().attach_context()) the caller replaces the current node's children through children_mut(), the traversal continues with exactly the replaced children: removed children are never visited, added ones are, and the rest of the traversal is unaffected.", "quantifier": "for every finite tree, every sequence of edits at every visited node that leaves the tree finite", "why_tests_cant": "every schedule of edits interleaved with advances", "anchors": ["tree_iterators_rs/doc_files/tree_context_children.md", "tree_iterators_rs/src/tree_context.rs: TreeContext::children_mut", "tree_iterators_rs/src/dfs_preorder_iterators/mod.rs: preorder_context_streaming_iterator_impl!"]}
{"id": "C40", "title": "depth-first iterators keep at most one stack entry per level", "statement": "While iterating, the working memory of dfs_preorder/dfs_postorder/dfs_inorder (number of pending child iterators or nodes) never exceeds the number of levels of the tree; the same bound holds for the pending iterators and for the held values of the leaves iterator made from an unstarted depth-first iterator.", "quantifier": "for every finite tree, every number of next() calls", "why_tests_cant": "a resource bound over all reachable states", "anchors": ["tree_iterators_rs/src/dfs_preorder_iterators/mod.rs: dfs_preorder_next!", "tree_iterators_rs/src/dfs_postorder_iterators/mod.rs: dfs_postorder_next!"]}
{"id": "C41", "title": "collection attach_context panics exactly between the first value and the end", "statement": "Calling attach_context() on a collection traversal panics if next() has been called and the last call returned a value; before the first next(), and once the traversal has returned None, it does not panic.", "quantifier": "for every list of trees, every number of next() calls, every order", "why_tests_cant": "the guard looks at the current tree only, so the claim is about all reachable states", "anchors": ["tree_iterators_rs/src/collection_iterators.rs: owned_collection_context_iterator_impl!"]}
{"id": "C42", "title": "a pipeline that drops no node reports the paths of the collected tree", "statement": "For a pipeline made of map_tree and prune_depth stages (any chain of stages on binary trees), current_path() after each next() is the path at which the yielded node is found in the tree that collect_tree would return, and fold_path gives its closure these paths.", "quantifier": "for every finite tree whose nodes have at most 2^64 children, every chain of stages, all stateful closures", "why_tests_cant": "the path is kept by the source and handed through every stage; all shapes and chains", "anchors": ["tree_iterators_rs/src/tree_iterators/mod.rs: TreeIteratorBase::current_path", "tree_iterators_rs/src/tree_iterators/prune_depth.rs: PruneDepth::current_path", "tree_iterators_rs/src/tree_iterators/map.rs: Map::current_path"]}
{"id": "C43", "title": "loops over iter_mut update every value in place, once, in traversal order", "statement": "A loop over dfs_preorder_iter_mut(), dfs_postorder_iter_mut(), dfs_inorder_iter_mut() or bfs_iter_mut() of a Tree or BinaryTree, whose (stateful) body rewrites the value behind each reference and may break at any round, leaves the shape of the tree as it was, has rewritten exactly the first values of that traversal order, each once and in that order, and has left all other values alone. A loop over .leaves() rewrites the leaves from left to right and nothing else.", "quantifier": "for every Tree/BinaryTree, every stateful loop body, every number of rounds", "why_tests_cant": "which cell each reference aliases, for all shapes and all interleavings of reads and writes", "anchors": ["tree_iterators_rs/src/prelude.rs: impl MutBorrowedTreeNode for Tree", "tree_iterators_rs/src/prelude.rs: impl MutBorrowedBinaryTreeNode for BinaryTree", "tree_iterators_rs/src/dfs_preorder_iterators/mod.rs: dfs_preorder_next!", "tree_iterators_rs/src/bfs_iterators/mod.rs: bfs_next!"]}
{"id": "C44", "title": "slices of mutable references reach exactly the cells from the root to the node", "statement": "The k-th slice handed out by ..._iter_mut().attach_ancestors() consists of references to the values of the nodes from the root down to the k-th node of the traversal; a loop that rewrites values through these slices does to the tree what visiting the paths in traversal order and rewriting the values along each of them does.", "quantifier": "for every Tree/BinaryTree, every stateful loop body, every number of rounds, every order", "why_tests_cant": "every ancestor is aliased by many slices; all schedules of writes through them", "anchors": ["tree_iterators_rs/src/dfs_preorder_iterators/mod.rs: preorder_ancestors_streaming_iterator_impl!", "tree_iterators_rs/src/prelude.rs: impl MutBorrowedTreeNode for Tree"]}
{"id": "C45", "title": "pipelines and iterators agree on the order of the nodes", "statement": "Folding a tree with a closure that lists node-before-children, children-before-node, leaves only or (binary) left-node-right gives the lists yielded by dfs_preorder, dfs_postorder, .leaves() and dfs_inorder; fold calls its closure in the order of dfs_postorder; map calls its closure in the order of dfs_preorder and iterating over its result yields the closure's results in that order; collecting a pipeline changes no traversal.", "quantifier": "for every finite tree, every stateful closure (map)", "why_tests_cant": "relates independent implementations on all inputs", "anchors": ["tree_iterators_rs/src/tree_iterators/mod.rs: TreeIterator::fold_tree", "tree_iterators_rs/src/tree_iterators/mod.rs: TreeIterator::collect_tree", "tree_iterators_rs/src/dfs_preorder_iterators/mod.rs: dfs_preorder_next!"]}
{"id": "C46", "title": "a client that prunes by hand meets every node outside the subtrees it pruned, with its path", "statement": "A client that drives into_pipeline() with next(), reads current_path() after each item and calls prune_current_subtree() whenever it likes meets, in preorder and each with its path in the tree, exactly the nodes that are not strictly below a node at which it pruned; further calls of next() give nothing.", "quantifier": "for every finite tree (general: at most 2^64 children per node), every stateful client, every number of calls", "why_tests_cant": "every schedule of prune calls interleaved with next", "anchors": ["tree_iterators_rs/src/tree_iterators/mod.rs: TreeIteratorBase", "tree_iterators_rs/src/dfs_preorder_iterators/mod.rs: dfs_preorder_next_with_path_tracking!"]}
{"id": "C47", "title": "preorder and breadth-first traversals work on infinite trees, lazily", "statement": "A node type may describe an infinite, finitely branching tree. Then the k-th call of dfs_preorder().next() and of bfs().next(), plain, with ancestors or with context, still returns and gives the k-th entry of the traversal of the tree cut at any depth above k: the first k calls depend on no node deeper than k. A breadth-first traversal reaches every node; a preorder traversal does not reach a node to the right of an infinite branch. If every node has a child, next() never returns None. An in-order traversal (binary nodes) does the same where every walk to the left ends: its k-th call gives the k-th entry of the tree of the nodes reached with at most d steps to the right, for any d above k.", "quantifier": "for every (possibly infinite) tree, every number of calls, every path", "why_tests_cant": "infinitely many nodes; a test can only run finitely many calls on some infinite tree", "anchors": ["tree_iterators_rs/src/dfs_preorder_iterators/mod.rs: dfs_preorder_next!", "tree_iterators_rs/src/bfs_iterators/mod.rs: bfs_next!", "tree_iterators_rs/src/bfs_iterators/mod.rs: bfs_context_streaming_iterator_impl!"]}
{"id": "C48", "title": "each node is asked for its children once, when it is reached, and they are dropped exactly once", "statement": "A traversal calls get_value_and_children on each node at most once: in preorder and breadth-first order the call that returns a node asks that node and no other; in postorder the nodes are asked in preorder, and when a node is returned exactly the nodes before it in preorder, itself and those below it have been asked (bfs().attach_context() asks the root when it is made). The collection of children a node returned is dropped exactly once, whether the iterator is run to its end or dropped after any number of calls.", "quantifier": "for every finite tree, every number of calls after which the iterator is dropped", "why_tests_cant": "tests with plain values do not see how often a collection is dropped or a node is asked; every interruption point counts", "anchors": ["tree_iterators_rs/src/dfs_preorder_iterators/mod.rs: dfs_preorder_next!", "tree_iterators_rs/src/dfs_postorder_iterators/mod.rs: dfs_postorder_next!", "tree_iterators_rs/src/bfs_iterators/mod.rs: bfs_next!", "tree_iterators_rs/src/dfs_postorder_iterators/borrow.rs: BorrowedDFSPostorderIteratorWithContext::advance", "tree_iterators_rs/src/dfs_postorder_iterators/mut_borrow.rs: MutBorrowedDFSPostorderIteratorWithContext::advance"]}
{"id": "C49", "title": "breadth-first iterators drop every value they take from a node exactly once", "statement": "The owned bfs().attach_ancestors() and bfs().attach_context() iterators (general and binary) take the value of each node they reach. Each of these values is dropped exactly once: never twice, and, once the iterator has returned None or has been dropped after any number of calls, at least once.", "quantifier": "for every finite tree, every number of calls after which the iterator is dropped", "why_tests_cant": "tests with plain values see neither leaks nor double drops; every interruption point counts", "anchors": ["tree_iterators_rs/src/bfs_iterators/mod.rs: bfs_ancestors_streaming_iterator_impl!", "tree_iterators_rs/src/bfs_iterators/mod.rs: bfs_context_streaming_iterator_impl!", "tree_iterators_rs/src/bfs_iterators/mod.rs: bfs_context_binary_streaming_iterator_impl!", "tree_iterators_rs/src/bfs_iterators/mod.rs: TreeNodeVecDeque"]}
{"id": "C50", "title": "child iterators need not be fused", "statement": "A traversal asks a child iterator for items only up to its first None: what the iterator would answer after that has no influence on the nodes, ancestors, contexts or leaves the traversal reports. Traversals of collections ask the collection's iterator no further than its first None before they report None themselves.", "quantifier": "for every finite tree whose child iterators are arbitrary state machines that yield the children and then None; every number of calls", "why_tests_cant": "tests use slices, vectors and arrays, whose iterators are fused", "anchors": ["tree_iterators_rs/src/dfs_preorder_iterators/mod.rs: dfs_preorder_next!", "tree_iterators_rs/src/dfs_postorder_iterators/mod.rs: dfs_postorder_next!", "tree_iterators_rs/src/bfs_iterators/mod.rs: bfs_next!", "tree_iterators_rs/src/leaves_iterators/depth_first/mod.rs: dfs_postorder_leaves_next!", "tree_iterators_rs/src/leaves_iterators/ancestors_breadth_first/mod.rs: streaming_leaves!", "tree_iterators_rs/src/collection_iterators.rs: owned_collection_iterator_impl!"]}
{"id": "C51", "title": "whole-tree operations by mutable reference edit the borrowed tree in place", "statement": "On the crate's own Tree and BinaryTree: map_mut and map_path_mut call their closure on a reference to each value, once, in preorder; fold_mut and fold_path_mut bottom-up with the results of the children. Afterwards the borrowed tree has the same shape and holds, at each node, what the closure wrote there; the returned tree (or accumulation) is what the closure returned. prune_mut, prune_path_mut and prune_depth_mut return references to exactly the nodes kept, each once, and a loop that edits through them changes those nodes and no others.", "quantifier": "for every finite tree (the _path_mut functions on general trees: at most 2^64 children per node), every stateful closure that edits the value it is handed, every predicate, every loop body, every number of rounds", "why_tests_cant": "all shapes and all closures; a test compares a few trees with one closure each", "anchors": ["tree_iterators_rs/src/prelude.rs: MutBorrowedTreeNode::map_mut", "tree_iterators_rs/src/prelude.rs: MutBorrowedTreeNode::fold_mut", "tree_iterators_rs/src/prelude.rs: MutBorrowedTreeNode::fold_path_mut", "tree_iterators_rs/src/prelude.rs: MutBorrowedTreeNode::prune_mut", "tree_iterators_rs/src/prelude.rs: MutBorrowedTreeNode::prune_depth_mut", "tree_iterators_rs/src/prelude.rs: MutBorrowedBinaryTreeNode::map_mut"]}
{"id": "C52", "title": "cloned() copies the tree a tree of references refers to", "statement": "Calling cloned() on a Tree<&T>, Tree<&mut T>, BinaryTree<&T> or BinaryTree<&mut T> calls T::clone once for each reference, in preorder, and returns a tree of the same shape holding the clones. Hence collecting a borrowed tree and cloning gives the tree back, and pruning by reference and cloning is the same as pruning a clone.", "quantifier": "for every finite tree of references into a tree, every (stateful) Clone implementation, every predicate", "why_tests_cant": "relates composed operations on all trees", "anchors": ["tree_iterators_rs/src/prelude.rs: Tree<&T>::cloned", "tree_iterators_rs/src/prelude.rs: Tree<&mut T>::cloned", "tree_iterators_rs/src/prelude.rs: BinaryTree<&T>::cloned", "tree_iterators_rs/src/prelude.rs: BinaryTree<&mut T>::cloned"]}
{"id": "C53", "title": "breadth-first iterators hold the nodes of at most two adjacent levels", "statement": "After any number of calls a plain bfs() iterator (all ownership modes) holds at most as many child iterators as there are nodes on some two adjacent levels of the tree. Exactly: once it has returned a node other than the root, it holds one child iterator for each node from the parent of that node to that node, in level order.", "quantifier": "for every finite tree, every number of calls", "why_tests_cant": "the queue is private and not observable through the API; the claim is about every shape and every call", "anchors": ["tree_iterators_rs/src/bfs_iterators/mod.rs: bfs_next!", "tree_iterators_rs/src/bfs_iterators/owned.rs: OwnedBFSIterator"]}
{"id": "C54", "title": "dfs_preorder() is the most memory efficient traversal (README)", "statement": "No traversal order needs less room than preorder: the largest number of child iterators a dfs_preorder() iterator ever holds is at most the largest number of entries (child iterators and stored values) that dfs_postorder(), dfs_inorder() or bfs() hold at some point of a traversal of the same tree.", "quantifier": "for every finite tree", "why_tests_cant": "a statement about the peak over a whole traversal, compared between traversals, on every tree", "anchors": ["README.md: 61-63", "tree_iterators_rs/src/dfs_preorder_iterators/mod.rs: dfs_preorder_next!", "tree_iterators_rs/src/dfs_postorder_iterators/mod.rs: dfs_postorder_next!", "tree_iterators_rs/src/dfs_inorder_iterators/mod.rs: dfs_inorder_next!", "tree_iterators_rs/src/bfs_iterators/mod.rs: bfs_next!"]}
{"id": "C55", "title": "values written into the ancestors of an owned traversal stay written", "statement": "A loop over an owned attach_ancestors() iterator that writes through next_mut()/get_mut(), or over an owned attach_context() iterator that writes through get_mut() and ancestors_mut(), sees, in every round, what it would see if the nodes were in one tree in memory and it wrote to that tree: each slice shows, for each ancestor, the value last written to it in any earlier round, or the original value if none was; nothing else changes (in particular the paths in the contexts) and no round panics. This holds across the breadth-first cache, where the ancestors of other branches are put away and fetched again.", "quantifier": "for every finite tree, every stateful loop body that may write any values to the slice (of any length), every number of rounds; ancestors in preorder, postorder, in-order, breadth first; contexts in the same orders, for general and for binary nodes", "why_tests_cant": "a value written is read again only in later rounds, after the traversal has left and re-entered branches; tests of get_mut write once", "anchors": ["tree_iterators_rs/src/dfs_preorder_iterators/mod.rs: get_mut_ancestors!", "tree_iterators_rs/src/dfs_postorder_iterators/mod.rs: get_mut_ancestors!", "tree_iterators_rs/src/dfs_inorder_iterators/mod.rs: get_mut_ancestors!", "tree_iterators_rs/src/bfs_iterators/mod.rs: get_mut_ancestors!", "tree_iterators_rs/src/bfs_iterators/mod.rs: bfs_ancestors_streaming_iterator_impl!", "tree_iterators_rs/src/bfs_iterators/mod.rs: bfs_context_streaming_iterator_impl!", "tree_iterators_rs/src/tree_context.rs: TreeContext::ancestors_mut"]}
{"id": "C56", "title": "children written into a post-order or in-order context change nothing", "statement": "The contexts of the mutably borrowed dfs_postorder() and dfs_inorder() iterators let a client replace the children in the context (children_mut). Whatever it writes there, at whatever nodes, every later context shows the path, ancestors and children it would have shown otherwise: nodes added to the collection are not visited, nodes removed from it are.", "quantifier": "for every finite tree (general nodes: at most 2^64 children per node), every stateful client, every number of calls", "why_tests_cant": "the documentation of children says the opposite; the claim is about all clients at all points of all traversals", "anchors": ["tree_iterators_rs/src/dfs_postorder_iterators/mut_borrow.rs: MutBorrowedDFSPostorderIteratorWithContext", "tree_iterators_rs/src/dfs_postorder_iterators/mut_borrow.rs: MutBorrowedBinaryDFSPostorderIteratorWithContext", "tree_iterators_rs/src/dfs_inorder_iterators/mut_borrow.rs: MutBorrowedDFSInorderIteratorWithContext", "tree_iterators_rs/src/tree_context.rs: TreeContext::children_mut"]}
{"id": "C57", "title": "a mutably borrowed traversal never gives out the same mutable reference twice", "statement": "A program that moves references out of the items a mutably borrowed streaming iterator shows through get_mut() (ancestors of attach_ancestors() and of leaves() after it, ancestors and children of attach_context()), keeps them while the traversal goes on and puts others in their place, never holds a mutable reference to a value that the item it is shown gives access to as well. (The README, 95, reports aliasing found by miri as fixed.)", "quantifier": "for every finite tree, every program that calls next, exchanges the references in the current item with references of its own in any way and drops some, any number of times; attach_ancestors() in the four orders, leaves() at any point of these, attach_context() in the four orders for general and binary nodes and for collections of them", "why_tests_cant": "aliasing has no observable effect in a test without miri, and miri sees only the clients that were written", "anchors": ["tree_iterators_rs/src/dfs_preorder_iterators/mod.rs: get_mut_context!", "tree_iterators_rs/src/dfs_postorder_iterators/mut_borrow.rs: MutBorrowedDFSPostorderIteratorWithContext", "tree_iterators_rs/src/dfs_postorder_iterators/mut_borrow.rs: MutBorrowedBinaryDFSPostorderIteratorWithContext", "tree_iterators_rs/src/dfs_inorder_iterators/mut_borrow.rs: MutBorrowedDFSInorderIteratorWithContext", "tree_iterators_rs/src/bfs_iterators/mod.rs: get_mut_context!", "tree_iterators_rs/src/tree_context.rs: TreeContext::children_mut", "tree_iterators_rs/src/tree_context.rs: TreeContext::ancestors_mut"]}
{"id": "C58", "title": "safe programs never make a breadth-first iterator read uninitialised memory", "statement": "A program that calls next on a bfs() iterator with attach_ancestors() (also after leaves()) or attach_context(), writes to the slice or context that get_mut() hands out, and may put back a context it has been shown before (TreeContext is Clone), never makes next call assume_init on an entry of the tree cache that holds no value.", "quantifier": "for every finite tree and every such program; single trees and collections, general and binary nodes", "why_tests_cant": "undefined behaviour shows in a test only under miri, and the cache is private; the claim is about all programs", "anchors": ["tree_iterators_rs/src/bfs_iterators/mod.rs: bfs_context_advance_iterator!", "tree_iterators_rs/src/bfs_iterators/mod.rs: bfs_ancestors_advance_iterator!", "tree_iterators_rs/src/bfs_iterators/mod.rs: get_mut_context!", "tree_iterators_rs/src/leaves_iterators/ancestors_breadth_first/mod.rs: bfs_next!", "tree_iterators_rs/src/tree_context.rs: TreeContext"]}
{"id": "C59", "title": "the slice map_path hands to its closure is memory in use", "statement": "Whenever the closure of map_path (on a tree or on a collection of trees) is called, the slice of path segments it is given is empty or lies in the allocation of the path shown by the pipeline before it (that of the source, or of the last prune or prune_path stage on general trees and on collections), which has not been freed.", "quantifier": "for every finite tree and every collection of them, general and binary, every chain of map_tree, prune, prune_path and prune_depth stages before map_path, every closure, every call, however vectors grow", "why_tests_cant": "reading freed memory shows in a test only under miri, and only for trees deep enough; the claim is about all trees and all growth policies of Vec", "anchors": ["tree_iterators_rs/src/tree_iterators/map_path.rs: MapPath", "tree_iterators_rs/src/tree_collection_iterators/map_path.rs: CollectionMapPath", "tree_iterators_rs/src/tree_iterators/prune.rs: Prune", "tree_iterators_rs/src/tree_iterators/prune_path.rs: PrunePath", "tree_iterators_rs/src/tree_collection_iterators/prune.rs: CollectionPrune", "tree_iterators_rs/src/tree_collection_iterators/prune_path.rs: CollectionPrunePath", "tree_iterators_rs/src/dfs_preorder_iterators/mod.rs: dfs_preorder_next_with_path_tracking!", "tree_iterators_rs/src/dfs_preorder_iterators/mod.rs: dfs_preorder_binary_next_with_path_tracking!", "tree_iterators_rs/src/dfs_preorder_iterators/owned.rs: OwnedDFSPreorderCollectionIteratorWithPathTracking"]}
{"id": "C60", "title": "prune_depth makes pipelines end on infinite trees", "statement": "On a tree that may be infinite, a pipeline that contains prune_depth(d) among any map, prune, prune_path and prune_depth stages ends when it is collected, folded or iterated. The result, the calls of the closures and the reported paths are those on the finite tree of the nodes down to depth d, and no loop is entered more often than that tree has nodes, and once more. In particular prune_depth(d) gives exactly the values down to depth d. Without such a stage, collect_tree does not end where every node has a child.", "quantifier": "for every node type (finitely many children per node, but trees of any depth, also infinite), every chain of stages, every closure, every d; general and binary trees", "why_tests_cant": "whether a loop ends on an infinite tree cannot be observed by a test that fails, and chains of stages and closures are unbounded", "anchors": ["tree_iterators_rs/src/tree_iterators/prune_depth.rs: PruneDepth", "tree_iterators_rs/src/tree_iterators/prune.rs: Prune", "tree_iterators_rs/src/tree_iterators/prune_path.rs: PrunePath", "tree_iterators_rs/src/tree_iterators/map.rs: Map", "tree_iterators_rs/src/tree_iterators/mod.rs: TreeIterator::collect_tree", "tree_iterators_rs/src/tree_iterators/mod.rs: BinaryTreeIterator::collect_tree", "tree_iterators_rs/src/prelude.rs: OwnedTreeNode::prune_depth", "tree_iterators_rs/src/prelude.rs: OwnedBinaryTreeNode::prune_depth"]}
{"id": "C61", "title": "preorder and breadth-first traversals work on nodes with infinitely many children", "statement": "A user type may have child iterators that never end, and trees of infinite depth. On such a tree call number k of dfs_preorder() and bfs(), plain, with attach_ancestors() or with attach_context(), returns, and its answer is read off any finite piece of the tree that tells more than k children of the root: no call asks for more than that. The child iterator in a context has not been advanced. Breadth first, with infinitely many children of the root, gives them one after the other and never gets further.", "quantifier": "for every node type whose child iterators are arbitrary state machines (endless, not fused, of any depth), every call number (contexts: below 2^64), every piece that is large enough", "why_tests_cant": "a test that asks an endless iterator for too much does not fail, it hangs; the claim is about all calls on all infinite trees", "anchors": ["tree_iterators_rs/src/dfs_preorder_iterators/mod.rs: dfs_preorder_next!", "tree_iterators_rs/src/dfs_preorder_iterators/mod.rs: preorder_ancestors_streaming_iterator_impl!", "tree_iterators_rs/src/dfs_preorder_iterators/mod.rs: preorder_context_streaming_iterator_impl!", "tree_iterators_rs/src/bfs_iterators/mod.rs: bfs_next!", "tree_iterators_rs/src/bfs_iterators/mod.rs: bfs_ancestors_streaming_iterator_impl!", "tree_iterators_rs/src/bfs_iterators/mod.rs: bfs_context_streaming_iterator_impl!"]}
{"id": "C62", "title": "iterators survive a caught panic of the user's code", "statement": "When the user's code that splits a node into value and children panics and the program catches the panic (catch_unwind) and keeps calling the iterator, the traversal goes on with the next node, as if the tree had no subtree there: call number k panics or answers exactly as the list of the remaining nodes says, with right ancestors, paths and children, and no node is skipped or answered twice.", "quantifier": "for every tree, every set of nodes at which the user's code panics, every call number, and every iterator: plain, with ancestors, with context, leaves; preorder, postorder, in-order, breadth-first", "why_tests_cant": "the states left by a panic differ at every node of every tree; tests rarely catch panics of user code, and the defects show only at later nodes", "anchors": ["tree_iterators_rs/src/dfs_preorder_iterators/mod.rs: dfs_preorder_next!", "tree_iterators_rs/src/dfs_preorder_iterators/mod.rs: preorder_ancestors_streaming_iterator_impl!", "tree_iterators_rs/src/dfs_preorder_iterators/mod.rs: preorder_context_streaming_iterator_impl!", "tree_iterators_rs/src/dfs_postorder_iterators/mod.rs: dfs_postorder_next!", "tree_iterators_rs/src/dfs_postorder_iterators/borrow.rs: BorrowedDFSPostorderIteratorWithContext::advance", "tree_iterators_rs/src/dfs_postorder_iterators/borrow.rs: BorrowedBinaryDFSPostorderIteratorWithContext::advance", "tree_iterators_rs/src/dfs_postorder_iterators/owned.rs: OwnedDFSPostorderIteratorWithContext::advance", "tree_iterators_rs/src/dfs_inorder_iterators/mod.rs: dfs_inorder_next!", "tree_iterators_rs/src/bfs_iterators/mod.rs: bfs_next!", "tree_iterators_rs/src/bfs_iterators/mod.rs: bfs_ancestors_streaming_iterator_impl!", "tree_iterators_rs/src/bfs_iterators/mod.rs: bfs_context_streaming_iterator_impl!", "tree_iterators_rs/src/leaves_iterators/depth_first/mod.rs: dfs_postorder_leaves_next!", "tree_iterators_rs/src/leaves_iterators/ancestors_depth_first/mod.rs: streaming_leaves!"]}
{"id": "C63", "title": "a pipeline keeps a single ancestor stack, however many stages it has", "statement": "Between any two calls, each vector a pipeline holds has fewer entries than the tree has levels: the path and the traversal stack of its source, and the path and the counters of each stage that drops nodes by a closure. No stage holds a second traversal stack, and map, prune_depth and the stages of binary pipelines hold no vector at all. With prune_depth(d) among the stages of a pipeline on a single tree no vector is longer than d, however high the tree. On a collection the vectors are those of the tree at hand, with one more entry in the paths for the number of the tree.", "quantifier": "for every finite tree and collection, every chain of stages, every closure, every order of next and prune_current_subtree; general and binary trees", "why_tests_cant": "the vectors are private, and a growing one shows only as memory use; the claim is about all chains and all orders of calls", "anchors": ["tree_iterators_rs/src/prelude.rs: OwnedTreeNode::into_pipeline", "tree_iterators_rs/src/prelude.rs: OwnedBinaryTreeNode::into_pipeline", "tree_iterators_rs/src/tree_iterators/prune.rs: Prune", "tree_iterators_rs/src/tree_iterators/prune_path.rs: PrunePath", "tree_iterators_rs/src/tree_iterators/prune_depth.rs: PruneDepth", "tree_iterators_rs/src/dfs_preorder_iterators/mod.rs: dfs_preorder_next_with_path_tracking!", "tree_iterators_rs/src/dfs_preorder_iterators/mod.rs: dfs_preorder_binary_next_with_path_tracking!", "tree_iterators_rs/src/dfs_preorder_iterators/owned.rs: OwnedDFSPreorderCollectionIteratorWithPathTracking"]}
{"id": "C64", "title": "chained stages on a collection act on each tree on its own", "statement": "A chain of stages (map_trees, prune, prune_path, prune_depth) on the pipeline of a collection, ended by trees, fold_trees or fold_path, gives on its k-th call of next what the chain makes of the k-th tree whose root survives, and None after the last: no node is lost, moved to a neighbouring tree or seen twice by a closure, and the closures, which share one state, see the nodes in the order of the collection. With closures without a state, a further map_trees, prune or prune_depth gives the same as collecting the trees first and calling map_each, prune_each or prune_depth_each on these.", "quantifier": "for every list of trees, every chain of stages in which no prune_path comes after a prune or prune_path (binary trees: every chain), every closure, every number of calls; fold_path on general trees after chains that drop no node by a closure", "why_tests_cant": "the end of a tree is recognised by looking one node ahead through all stages, each with its own counters; tests cover single stages on few trees", "anchors": ["tree_iterators_rs/src/tree_collection_iterators/trees.rs: Trees::next", "tree_iterators_rs/src/tree_collection_iterators/fold.rs: Fold::next", "tree_iterators_rs/src/tree_collection_iterators/fold_path.rs: FoldPath::next", "tree_iterators_rs/src/tree_collection_iterators/map.rs: CollectionMap", "tree_iterators_rs/src/tree_collection_iterators/prune.rs: CollectionPrune", "tree_iterators_rs/src/tree_collection_iterators/prune_path.rs: CollectionPrunePath", "tree_iterators_rs/src/tree_collection_iterators/prune_depth.rs: CollectionPruneDepth"]}
{"id": "C65", "title": "collection traversals work on any source of trees and ask it only when they have to", "statement": "The iterator behind a collection may go on for ever, and may answer None and later give further trees. bfs, dfs_preorder, dfs_postorder and dfs_inorder of the collection, plain and with attach_context, give the nodes of one tree after the other, each tree in full, and answer None exactly once for every None of the source. The source is asked exactly when the last node of the tree at hand has been given and the next call comes: while the nodes of the i-th answer are given it has been asked i + 1 times, and no call asks twice. The first entry of the path in a context counts how often the source was asked before, including the times it answered None.", "quantifier": "for every source of trees (any state machine: endless, not fused), every call number, every tree it gives (contexts: with at most 2^64 children per node); all traversals of general and binary trees", "why_tests_cant": "an endless source makes a test hang instead of fail, and sources with side effects or pauses are not tested; the claim is about all of them", "anchors": ["tree_iterators_rs/src/collection_iterators.rs: owned_collection_iterator_impl!", "tree_iterators_rs/src/collection_iterators.rs: owned_collection_context_iterator_impl!", "tree_iterators_rs/src/collection_iterators.rs: borrowed_collection_iterator_impl!", "tree_iterators_rs/src/prelude.rs: OwnedIntoIteratorOfTrees", "tree_iterators_rs/src/prelude.rs: OwnedIntoIteratorOfBinaryTrees"]}
{"id": "C66", "title": "what is written through at_path_mut changes the subtree there and nothing else", "statement": "at_path_mut(path) finds the node at_path finds. If a tree is written through the reference it returns, the tree afterwards has that tree at the path; every node neither above nor below keeps its path and its subtree, and every node above keeps its value and the number of its children, so the traversals change in one block. Nothing changes if nothing is written; asking again finds what was written, and writing again replaces it; at_path_mut(p) followed by at_path_mut(q) is at_path_mut of the joined path; edits at places that are not above one another can be made in either order. On a collection the first index chooses the tree and no other tree changes. Collecting the paths of a context traversal and then editing the values there, one at_path_mut after the other, has the outcome of the loop over the iterator of mutable references in the same order.", "quantifier": "for every tree and collection of the crate's own types, general and binary, every path, every tree written, every closure; all traversal orders", "why_tests_cant": "tests read through at_path; that a write stays where it belongs is a claim about all other nodes of all trees", "anchors": ["tree_iterators_rs/src/prelude.rs: MutBorrowedTreeNode::at_path_mut", "tree_iterators_rs/src/prelude.rs: MutBorrowedBinaryTreeNode::at_path_mut", "tree_iterators_rs/src/prelude.rs: MutBorrowedIntoIteratorOfTrees::at_path_mut", "tree_iterators_rs/src/prelude.rs: MutBorrowedIntoIteratorOfBinaryTrees::at_path_mut"]}
{"id": "C67", "title": "pipelines on collections work on any source of trees and look one tree ahead at most", "statement": "The iterator behind a collection may go on for ever, or give trees again after a None. If it first gives the trees ns and a chain of stages (map_trees, prune, prune_path, prune_depth) with trees, fold_trees or fold_path at its end has more than k results on the list ns, then the first k calls of next on the source return, with the first k of these results, and no tree after ns has been asked for. If the source answers None after ns, every number of calls gives what it gives on the list ns: the pipeline ends at the first None, and the source is not asked again. The limit: if the root of every tree of an endless source is dropped, next does not return.", "quantifier": "for every source of trees (any state machine: endless, not fused), every list of trees it gives first, every chain of stages as in C64, every closure with state, every number of calls; general and binary trees, all three ends", "why_tests_cant": "on an endless source a pipeline that asks for too much hangs instead of failing a test, and every chain of stages looks ahead in its own way", "anchors": ["tree_iterators_rs/src/dfs_preorder_iterators/owned.rs: OwnedDFSPreorderCollectionIteratorWithPathTracking", "tree_iterators_rs/src/dfs_preorder_iterators/owned.rs: OwnedBinaryDFSPreorderCollectionIteratorWithPathTracking", "tree_iterators_rs/src/tree_collection_iterators/trees.rs: Trees::next", "tree_iterators_rs/src/tree_collection_iterators/fold.rs: Fold::next", "tree_iterators_rs/src/tree_collection_iterators/fold_path.rs: FoldPath::next", "tree_iterators_rs/src/tree_collection_iterators/prune.rs: CollectionPrune", "tree_iterators_rs/src/tree_collection_iterators/prune_path.rs: CollectionPrunePath"]}
{"id": "C68", "title": "loops and pipelines over a collection borrowed mutably edit its trees in place", "statement": "A loop over bfs_each_iter_mut, dfs_preorder_each_iter_mut, dfs_postorder_each_iter_mut or dfs_inorder_each_iter_mut of a collection of mutably borrowed trees that is left after k rounds has rewritten the first k values of the listings of the trees one after another, each once, in that order, and nothing else; every tree keeps its shape and the state of the body is threaded through all trees. map_each_mut, fold_each_mut and fold_path_each_mut leave in each tree what the closure wrote, at the node it was called for, and yield what it returned, tree by tree. prune_each_mut, prune_path_each_mut and prune_depth_each_mut yield trees of references to exactly the nodes that are kept; nothing is written, and a loop over these references edits just these nodes.", "quantifier": "for every list of trees, every body or closure with state, every number of rounds or calls; general and binary trees; the closures of the path versions get the number of the tree and then the path", "why_tests_cant": "an off-by-one between trees shows as a write to the wrong tree, which a test with one tree or with equal trees does not see; how the state runs through and where the loop stops depend on all trees together", "anchors": ["tree_iterators_rs/src/prelude.rs: MutBorrowedIntoIteratorOfTrees", "tree_iterators_rs/src/prelude.rs: MutBorrowedIntoIteratorOfBinaryTrees", "tree_iterators_rs/src/collection_iterators.rs: mut_borrowed_collection_iterator_impl", "tree_iterators_rs/src/tree_collection_iterators/fold.rs: Fold::next", "tree_iterators_rs/src/tree_collection_iterators/map.rs: CollectionMap::next", "tree_iterators_rs/src/tree_collection_iterators/prune.rs: CollectionPrune"]}
{"id": "C69", "title": "what the closures of a collection pipeline have seen when it is dropped early", "statement": "A pipeline on a collection that is dropped after k > 0 calls of next has called the closure of fold_each, fold_path_each or fold_trees with exactly the nodes of the trees behind its first k results, in order, and with nothing of a later tree. The closures of the stages (map_each, prune_each, prune_path_each, chains of stages) have been called for all nodes of the trees up to that of the k-th result and then, to see that this tree is complete, for the roots of the following trees up to and including the first one that is kept: never for a node below that root. Nothing is called before the first call of next, and after the last result the closures are not called again. With mutably borrowed trees this says what is left behind: map_each_mut has rewritten the trees handed out and the root of the next one, fold_each_mut and fold_path_each_mut the trees handed out and nothing else.", "quantifier": "for every list of trees, every closure with state, every number of calls; single operations and chains of stages as in C64; general and binary trees", "why_tests_cant": "the look-ahead shows only in the side effects of closures of an iterator that is not run to its end; tests run the iterators to the end with pure closures", "anchors": ["tree_iterators_rs/src/tree_collection_iterators/trees.rs: Trees::next", "tree_iterators_rs/src/tree_collection_iterators/fold.rs: Fold::next", "tree_iterators_rs/src/tree_collection_iterators/fold_path.rs: FoldPath::next", "tree_iterators_rs/src/tree_collection_iterators/map.rs: CollectionMap", "tree_iterators_rs/src/tree_collection_iterators/prune.rs: CollectionPrune", "tree_iterators_rs/src/tree_collection_iterators/prune_path.rs: CollectionPrunePath"]}
{"id": "C70", "title": "collect_tree and fold_tree on a pipeline that was advanced by hand", "statement": "A pipeline is an Iterator, so a program may call next() k times on it and then collect_tree() or fold_tree(). Neither panics, whatever k is, and the closures of the stages are called exactly as without the calls by hand. On general trees collect_tree gives a tree whose preorder is exactly the values that are left (None if and only if nothing is left), and if what is left is one whole subtree, that subtree is collected; fold_tree folds that tree. On binary trees no value that is left is missing from the result, and fold_tree folds what collect_tree collects.", "quantifier": "for every tree, every chain of stages in which no prune_path comes after a prune or prune_path (binary trees: every chain), every closure with state, every number k of calls", "why_tests_cant": "the stack machines of collect_tree and fold_tree are written for a first item at depth zero; tests always collect fresh pipelines", "anchors": ["tree_iterators_rs/src/tree_iterators/mod.rs: TreeIterator::collect_tree", "tree_iterators_rs/src/tree_iterators/mod.rs: TreeIterator::fold_tree", "tree_iterators_rs/src/tree_iterators/mod.rs: BinaryTreeIterator::collect_tree", "tree_iterators_rs/src/tree_iterators/mod.rs: BinaryTreeIterator::fold_tree", "tree_iterators_rs/src/tree_iterators/mod.rs: BinaryTreeIterator::fold_path"]}
{"id": "C71", "title": "Pipelines go on after a caught panic of a closure", "statement": "A program may catch a panic of a closure given to map_tree or prune (or of get_value_and_children) and go on calling next() on the pipeline. Each panic costs one call. A node whose map_tree or prune closure panicked is left out, later stages do not see it, and its children are visited as if it had been kept; a node whose get_value_and_children panicked is left out with all that is below it; nodes pruned before stay pruned. Every closure is called for the same nodes in the same order as this says, and the pipeline itself never panics. In particular nothing below the depth limit of prune_depth is ever returned.", "quantifier": "for every tree (general and binary), every chain of map_tree, prune and prune_depth stages, all closures with state, every set of nodes and states at which the user's code panics, every number of calls", "why_tests_cant": "tests do not catch panics of closures and go on; the state in which each stage is left when the stage inside it panics is visible only to a caller that does", "anchors": ["tree_iterators_rs/src/tree_iterators/map.rs: Map::next", "tree_iterators_rs/src/tree_iterators/prune.rs: Prune::next", "tree_iterators_rs/src/tree_iterators/prune.rs: BinaryPrune::next", "tree_iterators_rs/src/tree_iterators/prune_depth.rs: PruneDepth::next", "tree_iterators_rs/src/dfs_preorder_iterators/mod.rs: dfs_preorder_next_with_path_tracking!", "tree_iterators_rs/src/dfs_preorder_iterators/mod.rs: dfs_preorder_binary_next_with_path_tracking!"]}
{"id": "C72", "title": "trees and fold_trees on a collection pipeline go on after a caught panic of a closure", "statement": "A program may catch a panic of a closure given to map_trees or prune (or of get_value_and_children) that comes out of a call of next on trees() or fold_trees() and go on. Each panic costs one call and nothing but the tree it falls on is affected: a tree on none of whose nodes the user's code panics comes out whole, as if nothing had happened, and whatever comes out is the result of a tree of the collection. The same if the pipeline was advanced by hand before.", "quantifier": "for every list of general trees, every chain of map_trees, prune and prune_depth stages, all closures with state, every set of nodes and states at which the user's code panics, every number of calls by hand and of calls", "why_tests_cant": "the part of a tree that is already built lives in a local variable of next and is lost on unwinding, which only a caller who catches the panic and goes on can see; where the next call begins depends on the node of the panic", "anchors": ["tree_iterators_rs/src/tree_collection_iterators/trees.rs: Trees::next", "tree_iterators_rs/src/tree_collection_iterators/fold.rs: Fold::next", "tree_iterators_rs/src/dfs_preorder_iterators/owned.rs: OwnedDFSPreorderCollectionIteratorWithPathTracking", "tree_iterators_rs/src/tree_collection_iterators/prune.rs: CollectionPrune", "tree_iterators_rs/src/tree_collection_iterators/map.rs: CollectionMap::next"]}
{"id": "C73", "title": "Positions are right after a caught panic", "statement": "A program may catch a panic of a closure given to map_tree, prune or prune_path (or of get_value_and_children) and go on calling next() on the pipeline. After every call that returned a value or panicked, current_path() is the position of the node the call dealt with, in a collection with the number of the tree in front; every closure of prune_path is given the position of the node whose value it is given; and prune_current_subtree() leaves out what is below that node and nothing else, also if the call panicked.", "quantifier": "for every tree and collection (general with at most 2^64 children per node, and binary), every chain of map_tree, prune, prune_path and prune_depth stages, all closures with state, every set of nodes and states at which the user's code panics, every client that looks at the path and prunes as it likes after each call, every number of calls", "why_tests_cant": "tests do not catch panics of closures, and do not look at current_path() between calls; which vectors are already up to date when the panic leaves next() depends on the stage it comes from", "anchors": ["tree_iterators_rs/src/tree_iterators/mod.rs: TreeIteratorBase::current_path", "tree_iterators_rs/src/tree_iterators/mod.rs: TreeIteratorBase::prune_current_subtree", "tree_iterators_rs/src/tree_iterators/prune.rs: Prune::next", "tree_iterators_rs/src/tree_iterators/prune_path.rs: PrunePath::next", "tree_iterators_rs/src/tree_iterators/prune_path.rs: BinaryPrunePath::next", "tree_iterators_rs/src/tree_collection_iterators/prune_path.rs: CollectionPrunePath", "tree_iterators_rs/src/dfs_preorder_iterators/mod.rs: dfs_preorder_next_with_path_tracking!", "tree_iterators_rs/src/dfs_preorder_iterators/mod.rs: dfs_preorder_binary_next_with_path_tracking!"]}
{"id": "C74", "title": "fold_trees goes on after a caught panic of its own closure", "statement": "A program may catch a panic of the closure of fold_each or fold_trees that comes out of a call of next and go on. Nothing but the tree on which the closure panicked is affected: a tree on none of whose values the closure panics comes out folded as if nothing had happened, and whatever comes out is the fold of a tree of the collection. The same if stages before it panic, or if the pipeline was advanced by hand before.", "quantifier": "for every list of general trees, every chain of map_trees, prune and prune_depth stages, all closures with state, every set of values and states at which the closures panic, every number of calls", "why_tests_cant": "that the value at hand, which may be the root of the next tree, is in a local variable while the closure runs shows only to a caller who catches the panic and goes on", "anchors": ["tree_iterators_rs/src/tree_collection_iterators/fold.rs: Fold::next"]}
{"id": "C75", "title": "fold_path and the ends on binary collections go on after a caught panic", "statement": "A program may catch a panic (of get_value_and_children, of a closure of map_trees, prune or prune_path, or of the closure of fold_trees or fold_path itself) that comes out of a call of next on fold_path(), or on trees(), fold_trees() or fold_path() of a collection of binary trees, and go on. No value that comes after the panic, and at which the user's code does not panic, is lost; the closure of fold_path is told the position of the node in the collection; left children stay left and right children right; and a tree on whose values, and on the root after which, nothing panics comes out whole. The same if the pipeline was advanced by hand before.", "quantifier": "for every list of trees (general with at most 2^64 children per node, and binary), every chain of map_trees, prune, prune_path and prune_depth stages, all closures with state, every set of values and states at which the closures panic, every number of calls by hand and of calls", "why_tests_cant": "after a panic the rest of a tree is put together by depth only, while slots and positions come from the numbers of the children in the real tree; only a caller who catches the panic and goes on sees the mixture", "anchors": ["tree_iterators_rs/src/tree_collection_iterators/fold_path.rs: FoldPath::next", "tree_iterators_rs/src/tree_collection_iterators/fold_path.rs: BinaryFoldPath::next", "tree_iterators_rs/src/tree_collection_iterators/fold.rs: BinaryFold::next", "tree_iterators_rs/src/tree_collection_iterators/trees.rs: BinaryTrees::next"]}
{"id": "C76", "title": "A traversal of a collection goes on after a caught panic", "statement": "A program may catch a panic of the collection's own iterator, or of get_value_and_children of a node, that comes out of a call of next on a traversal of a collection, and go on. Each such panic takes one call. Every tree the collection's iterator gives is traversed completely but for the subtrees below the nodes at which get_value_and_children panicked, and nothing is answered twice; in attach_context() the first segment of every path is the number of the tree, and panics of the collection's iterator are not counted.", "quantifier": "for every sequence of trees and panics of the collection's iterator (with at most 2^64 trees, and at most 2^64 children per node, fewer for breadth-first contexts), every set of nodes at which get_value_and_children panics, every number of calls", "why_tests_cant": "the iterator of the last tree is asked again after its end, and the counter of trees must be moved only by a tree that was really given; only a caller who catches the panic and goes on sees it", "anchors": ["tree_iterators_rs/src/collection_iterators.rs: owned_collection_iterator_impl", "tree_iterators_rs/src/collection_iterators.rs: owned_collection_context_iterator_impl"]}
{"id": "C77", "title": "The children of a node are released as soon as the traversal has left them", "statement": "Depth-first traversals open nodes (call get_value_and_children) and release the collections of children in the order of one walk around the tree: a node is opened, its children are walked around from left to right, and the node's collection is released. Each call of next in preorder goes along this walk up to and including the next opening, so that everything left behind is released before the next node is asked, and each call in postorder goes up to and including the next release; at no moment, not even inside a call, are more collections held than the tree has levels. A breadth-first traversal opens the root and then, node by node in level order, opens the children of the node and releases its collection, each call going up to the next opening. The same holds with attach_context() (in postorder for the owned traversal) and with attach_ancestors() (breadth first up to the call that returns None). With leaves(), taken before the first call, with or without attach_ancestors(), a call goes along the walk up to the release of the next childless node, breadth first along the levels up to the opening of the next childless node (bfs().attach_ancestors() and bfs().attach_context() open the root when they are made). Whatever is opened and not released is held by the iterator, once.", "quantifier": "for every finite tree, every number of calls, every moment inside a call", "why_tests_cant": "the values returned are the same whenever the collections are dropped; only a test with counting Drop implementations on many shapes could see the order, and only for those shapes", "anchors": ["tree_iterators_rs/src/dfs_preorder_iterators/mod.rs: dfs_preorder_next!", "tree_iterators_rs/src/dfs_postorder_iterators/mod.rs: dfs_postorder_next!", "tree_iterators_rs/src/bfs_iterators/mod.rs: bfs_next!", "tree_iterators_rs/src/dfs_preorder_iterators/mod.rs: preorder_context_streaming_iterator_impl!", "tree_iterators_rs/src/dfs_postorder_iterators/owned.rs", "tree_iterators_rs/src/bfs_iterators/mod.rs: bfs_context_streaming_iterator_impl!", "tree_iterators_rs/src/leaves_iterators/depth_first/mod.rs", "tree_iterators_rs/src/leaves_iterators/breadth_first/mod.rs", "tree_iterators_rs/src/leaves_iterators/ancestors_depth_first/mod.rs", "tree_iterators_rs/src/leaves_iterators/ancestors_breadth_first/mod.rs"]}
{"id": "C78", "title": "What get shows after a caught panic belongs to one node", "statement": "A program may catch a panic of get_value_and_children that comes out of a call of next on an iterator with context or with ancestors, and then look at get(), which does not move the iterator. What it shows belongs to one node of the tree: a context has one ancestor more than its path has segments, and its children are there and are those of the last of these ancestors (so that children() does not panic; owned postorder and in-order contexts have no children); a slice is that of a node on the way to the node that panicked, and it is missing only if the root itself panicked.", "quantifier": "for every tree (general with at most 2^64 children per node, and binary), every set of nodes at which get_value_and_children panics, every call (for contexts, and for slices in postorder and of leaves, the call with the first panic)", "why_tests_cant": "no test catches a panic of get_value_and_children and calls get afterwards; path, ancestors and children are three fields that next changes one after the other, and what they hold in between depends on where in the tree the panic comes", "anchors": ["tree_iterators_rs/src/tree_context.rs: TreeContext::children", "tree_iterators_rs/src/dfs_preorder_iterators/mod.rs: preorder_context_streaming_iterator_impl!", "tree_iterators_rs/src/dfs_preorder_iterators/mod.rs: preorder_ancestors_streaming_iterator_impl!", "tree_iterators_rs/src/dfs_postorder_iterators/borrow.rs", "tree_iterators_rs/src/dfs_postorder_iterators/mod.rs: postorder_ancestors_streaming_iterator_impl!", "tree_iterators_rs/src/bfs_iterators/mod.rs: bfs_context_streaming_iterator_impl!", "tree_iterators_rs/src/bfs_iterators/mod.rs: bfs_ancestors_streaming_iterator_impl!", "tree_iterators_rs/src/leaves_iterators/ancestors_depth_first/mod.rs", "tree_iterators_rs/src/dfs_inorder_iterators/borrow.rs", "tree_iterators_rs/src/dfs_inorder_iterators/owned.rs", "tree_iterators_rs/src/dfs_inorder_iterators/mod.rs"]}
{"id": "C79", "title": "Traversals go on after a caught panic of a child iterator", "statement": "A program may catch a panic of the next of a child iterator that comes out of a call of next on a traversal, and go on. Each such panic takes one call, at the place in the order at which the child would have come; every child that the child iterators give before and after is answered as if nothing had happened, with all that is below it. With attach_ancestors() and attach_context() the ancestors and the position are those of the node, and the crate itself does not panic.", "quantifier": "for every finite tree, every sequence of children and panics of each child iterator (for contexts at most 2^64 calls of each), every number of calls", "why_tests_cant": "no test has a child iterator that panics; whether the node, its value and its child iterator are already stored when next or peek is called differs from iterator to iterator", "anchors": ["tree_iterators_rs/src/dfs_preorder_iterators/mod.rs", "tree_iterators_rs/src/dfs_postorder_iterators/mod.rs", "tree_iterators_rs/src/dfs_postorder_iterators/borrow.rs", "tree_iterators_rs/src/bfs_iterators/mod.rs", "tree_iterators_rs/src/leaves_iterators/depth_first/mod.rs", "tree_iterators_rs/src/leaves_iterators/ancestors_depth_first/mod.rs", "tree_iterators_rs/src/leaves_iterators/breadth_first/mod.rs", "tree_iterators_rs/src/leaves_iterators/ancestors_breadth_first/mod.rs"]}
{"id": "C80", "title": "A whole traversal asks for each child once", "statement": "However many calls of next are made, the calls of a traversal together call next of the child iterators at most 2m-1 times on a tree of m nodes: once for each node but the root and once for each node to find its iterator exhausted, exactly that often once the traversal has ended. This holds for preorder, postorder and breadth first, with attach_ancestors() and with attach_context() on general nodes, and for leaves() taken at any moment, where the calls made before count in; with attach_context() on binary nodes, whose iterators keep both slots of a node, it is at most 3m; a collection takes at most the sum of what its trees take; in order, slots taken from the stack and nodes split come to at most 2m+1 (3m+1 with attach_ancestors() or attach_context(), where the status entries count too). Breadth first with attach_ancestors() or attach_context() the work besides is not linear: a round of the loop of advance_dfs moves a single ancestor, so the rounds are at least the way from each slice to the next, and a root with two chains takes more than m(m-3)/2 rounds in the first m calls; but it is never worse than quadratic: at most 2m*m+4m rounds.", "quantifier": "for every finite tree, every number of calls; the lower bound for every finite tree, the quadratic one for every length of the chains", "why_tests_cant": "tests look at results, not at work; an iterator that asked again from the root, or that asked exhausted iterators again, would return the same values", "anchors": ["tree_iterators_rs/src/dfs_preorder_iterators/mod.rs", "tree_iterators_rs/src/dfs_postorder_iterators/mod.rs", "tree_iterators_rs/src/dfs_inorder_iterators/mod.rs", "tree_iterators_rs/src/bfs_iterators/mod.rs: bfs_next!", "tree_iterators_rs/src/bfs_iterators/mod.rs: advance_dfs", "tree_iterators_rs/src/leaves_iterators/depth_first/mod.rs", "tree_iterators_rs/src/leaves_iterators/ancestors_depth_first/mod.rs", "tree_iterators_rs/src/leaves_iterators/breadth_first/mod.rs"]}
{"id": "C81", "title": "A loop over a traversal does what a recursive visitor does, whatever state nodes and body share", "statement": "With interior mutability (Rc<RefCell<_>>, a file system) get_value_and_children, the next of a child iterator and the body of a for loop may read and write the same state, and what a node has to show depends on when it is asked. Whatever they do to that state, a for loop over a traversal ends, by coming to the end or by break, exactly when the obvious recursive visitor does, and both leave the same state behind: dfs_preorder() is the visitor that asks a node, calls the body, and only then asks for the first child, and asks for each next child only when the one before it is done; dfs_postorder() calls the body when the last child is done; leaves() of depth-first traversals calls it for nodes that turned out to have no child; dfs_inorder() asks a node for both children at once, then visits the left one, calls the body, and visits the right one; bfs() goes through one level and collects the iterators of the next. bfs().leaves() does so too, asks each node it meets at once for its first child, and calls the body if there is none. A traversal of a collection is two nested loops, the outer one through the source of the trees, which may act on the same state. With attach_ancestors() the body gets the values from the root to the node. With dfs_preorder().attach_context() it gets the context mutably: the visitor holds the ancestors in a variable which the body may write to, counts the children, and makes the children that the body leaves behind an iterator after the body. With dfs_postorder().attach_context() it gets it after the children, with the children of the node as they came if the tree is borrowed, and with none if it is owned; with dfs_inorder().attach_context() likewise between the children, which the node has been asked for together. With bfs() the visitor carries path and ancestors of each iterator along in its two levels; the body of attach_context() may write to the children there, too, and the loop panics if and only if the slots seen of one node come to 2^64. attach_ancestors().leaves() asks each node it meets at once for its first child, and shows root to node if there is none; breadth first the iterator of a root without children is asked once more after the body. Trees may be infinite, or change during the loop.", "quantifier": "for every type of state, nodes, child iterators and bodies that act on it, every tree, finite or not, every start state, every way the loop can end", "why_tests_cant": "tests use trees that are fixed; an iterator that asked for a child, or for the children of a node, one call earlier or later would return the same values on such trees", "anchors": ["tree_iterators_rs/src/dfs_preorder_iterators/mod.rs: dfs_preorder_next!", "tree_iterators_rs/src/dfs_preorder_iterators/mod.rs: preorder_ancestors_streaming_iterator_impl!", "tree_iterators_rs/src/dfs_postorder_iterators/mod.rs: dfs_postorder_next!", "tree_iterators_rs/src/dfs_postorder_iterators/mod.rs: postorder_ancestors_streaming_iterator_impl!", "tree_iterators_rs/src/leaves_iterators/depth_first/mod.rs: dfs_postorder_leaves_next!", "tree_iterators_rs/src/dfs_inorder_iterators/mod.rs: dfs_inorder_next!", "tree_iterators_rs/src/bfs_iterators/mod.rs: bfs_next!", "tree_iterators_rs/src/dfs_preorder_iterators/mod.rs: preorder_context_streaming_iterator_impl!", "tree_iterators_rs/src/dfs_preorder_iterators/mod.rs: preorder_binary_context_streaming_iterator_impl!", "tree_iterators_rs/src/dfs_postorder_iterators/borrow.rs: BorrowedDFSPostorderIteratorWithContext::advance", "tree_iterators_rs/src/dfs_postorder_iterators/owned.rs: OwnedBinaryDFSPostorderIteratorWithContext::advance", "tree_iterators_rs/src/dfs_inorder_iterators/mod.rs: dfs_inorder_ancestors_streaming_iterator_impl!", "tree_iterators_rs/src/dfs_inorder_iterators/borrow.rs: BorrowedDFSInorderIteratorWithContext::advance", "tree_iterators_rs/src/bfs_iterators/mod.rs: bfs_context_streaming_iterator_impl!", "tree_iterators_rs/src/bfs_iterators/mod.rs: bfs_context_binary_streaming_iterator_impl!", "tree_iterators_rs/src/bfs_iterators/mod.rs: bfs_ancestors_streaming_iterator_impl!", "tree_iterators_rs/src/leaves_iterators/ancestors_depth_first/mod.rs: streaming_leaves!", "tree_iterators_rs/src/leaves_iterators/ancestors_breadth_first/mod.rs: streaming_leaves!"]}
