{
 "claims": [
  {
   "property": "C01",
   "status": "proved",
   "theorems": [
    "TreeIter.C01_preorder",
    "TreeIter.C01_preorder_binary"
   ],
   "note": ""
  },
  {
   "property": "C02",
   "status": "proved",
   "theorems": [
    "TreeIter.C02_postorder",
    "TreeIter.C02_postorder_binary"
   ],
   "note": ""
  },
  {
   "property": "C03",
   "status": "proved",
   "theorems": [
    "TreeIter.C03_inorder"
   ],
   "note": ""
  },
  {
   "property": "C04",
   "status": "proved",
   "theorems": [
    "TreeIter.C04_bfs",
    "TreeIter.C04_bfs_binary"
   ],
   "note": ""
  },
  {
   "property": "C05",
   "status": "proved",
   "theorems": [
    "TreeIter.C05_preorder",
    "TreeIter.C05_postorder",
    "TreeIter.C05_bfs",
    "TreeIter.C05_inorder",
    "TreeIter.C05_binary",
    "TreeIter.C05_permutations",
    "TreeIter.C05_permutations_general"
   ],
   "note": ""
  },
  {
   "property": "C06",
   "status": "proved",
   "theorems": [
    "TreeIter.C06_preorder_ancestors"
   ],
   "note": ""
  },
  {
   "property": "C07",
   "status": "proved",
   "theorems": [
    "TreeIter.C07_postorder_ancestors"
   ],
   "note": ""
  },
  {
   "property": "C08",
   "status": "proved",
   "theorems": [
    "TreeIter.C08_inorder_ancestors"
   ],
   "note": ""
  },
  {
   "property": "C09",
   "status": "proved",
   "theorems": [
    "TreeIter.C09_bfs_ancestors",
    "TreeIter.C09_length"
   ],
   "note": ""
  },
  {
   "property": "C10",
   "status": "proved",
   "theorems": [
    "TreeIter.C10_preorder_context"
   ],
   "note": ""
  },
  {
   "property": "C11",
   "status": "proved",
   "theorems": [
    "TreeIter.C11_preorder_context_binary"
   ],
   "note": ""
  },
  {
   "property": "C12",
   "status": "proved",
   "theorems": [
    "TreeIter.C12_postorder_context",
    "TreeIter.C12_postorder_context_owned",
    "TreeIter.C12_postorder_context_binary",
    "TreeIter.C12_postorder_context_binary_mut",
    "TreeIter.C12_postorder_context_binary_owned"
   ],
   "note": ""
  },
  {
   "property": "C13",
   "status": "proved",
   "theorems": [
    "TreeIter.C13_inorder_context",
    "TreeIter.C13_inorder_context_owned"
   ],
   "note": ""
  },
  {
   "property": "C14",
   "status": "proved",
   "theorems": [
    "TreeIter.C14_bfs_context",
    "TreeIter.C14_bfs_context_binary",
    "TreeIter.C14_bfs_context_overflow"
   ],
   "note": "for nodes with fewer than 2^64 children; with 2^64 children or more the traversal panics (overflow checks on) one child before the indices run out"
  },
  {
   "property": "C15",
   "status": "proved",
   "theorems": [
    "TreeIter.C15_bfs",
    "TreeIter.C15_bfs_binary",
    "TreeIter.C15_preorder",
    "TreeIter.C15_preorder_binary",
    "TreeIter.C15_postorder",
    "TreeIter.C15_postorder_binary",
    "TreeIter.C15_postorder_binary_mut",
    "TreeIter.C15_inorder",
    "TreeIter.C15_postorder_owned",
    "TreeIter.C15_postorder_binary_owned",
    "TreeIter.C15_inorder_owned"
   ],
   "note": ""
  },
  {
   "property": "C16",
   "status": "proved",
   "theorems": [
    "TreeIter.C16_at_path",
    "TreeIter.C16_at_path_none",
    "TreeIter.C16_at_path_binary",
    "TreeIter.C16_at_path_binary_none",
    "TreeIter.C16_at_path_collection",
    "TreeIter.C16_at_path_collection_binary"
   ],
   "note": ""
  },
  {
   "property": "C17",
   "status": "proved",
   "theorems": [
    "TreeIter.C17_preorder_leaves",
    "TreeIter.C17_postorder_leaves",
    "TreeIter.C17_inorder_leaves"
   ],
   "note": ""
  },
  {
   "property": "C18",
   "status": "partial",
   "theorems": [
    "TreeIter.C18_preorder_false",
    "TreeIter.C18_postorder_false",
    "TreeIter.C18_inorder_false",
    "TreeIter.C18_preorder_partial",
    "TreeIter.C18_postorder_partial",
    "TreeIter.C18_inorder_partial",
    "TreeIter.C18_found_are_left"
   ],
   "note": "false of the code in every order (witnesses); the partial theorems say exactly which leaves are found: those for which no node in the subtree of the parent has been visited. Missing: the other unvisited leaves, which the code loses"
  },
  {
   "property": "C19",
   "status": "proved",
   "theorems": [
    "TreeIter.C19_bfs_leaves"
   ],
   "note": ""
  },
  {
   "property": "C20",
   "status": "proved",
   "theorems": [
    "TreeIter.C20_preorder_leaves_ancestors",
    "TreeIter.C20_postorder_leaves_ancestors",
    "TreeIter.C20_inorder_leaves_ancestors"
   ],
   "note": ""
  },
  {
   "property": "C21",
   "status": "partial",
   "theorems": [
    "TreeIter.C21_preorder_false",
    "TreeIter.C21_postorder_false",
    "TreeIter.C21_inorder_false",
    "TreeIter.C21_preorder_always_false",
    "TreeIter.C21_postorder_first_partial",
    "TreeIter.C21_preorder_partial",
    "TreeIter.C21_postorder_partial",
    "TreeIter.C21_inorder_partial"
   ],
   "note": "false of the code in every order (witnesses); in preorder the first answer is wrong at every interruption point with leaves left, in postorder the first answer is right at every point; the other partial theorems say that the last elements of the slices handed out, also past None, are the unvisited leaves in some order. Missing: order, the ancestors in the later slices, None only at the end"
  },
  {
   "property": "C22",
   "status": "proved",
   "theorems": [
    "TreeIter.C22_bfs_ancestors_leaves"
   ],
   "note": "k up to one past the number of nodes; later calls of the ancestor iterator itself panic (C24)"
  },
  {
   "property": "C23",
   "status": "proved",
   "theorems": [
    "TreeIter.C23_bfs_ancestors",
    "TreeIter.C23_bfs_context",
    "TreeIter.C23_bfs_context_binary",
    "TreeIter.C23_preorder_ancestors",
    "TreeIter.C23_preorder_context",
    "TreeIter.C23_preorder_context_binary",
    "TreeIter.C23_postorder_ancestors",
    "TreeIter.C23_postorder_context",
    "TreeIter.C23_postorder_context_owned",
    "TreeIter.C23_postorder_context_binary",
    "TreeIter.C23_postorder_context_binary_owned",
    "TreeIter.C23_inorder_ancestors",
    "TreeIter.C23_inorder_context",
    "TreeIter.C23_inorder_context_owned"
   ],
   "note": ""
  },
  {
   "property": "C24",
   "status": "partial",
   "theorems": [
    "TreeIter.C24_bfs_ancestors_false",
    "TreeIter.C24_preorder_ancestors_partial",
    "TreeIter.C24_postorder_ancestors_partial",
    "TreeIter.C24_inorder_ancestors_partial",
    "TreeIter.C24_preorder_context_partial",
    "TreeIter.C24_preorder_context_binary_partial",
    "TreeIter.C24_postorder_context_partial",
    "TreeIter.C24_postorder_context_owned_partial",
    "TreeIter.C24_postorder_context_binary_partial",
    "TreeIter.C24_postorder_context_binary_mut_partial",
    "TreeIter.C24_postorder_context_binary_owned_partial",
    "TreeIter.C24_inorder_context_partial",
    "TreeIter.C24_inorder_context_owned_partial",
    "TreeIter.C24_bfs_context_partial",
    "TreeIter.C24_bfs_context_binary_partial"
   ],
   "note": "false of the code for bfs().attach_ancestors(): C24_bfs_ancestors_false proves that every call after the first None panics, on every tree; the partial theorems cover every other ancestor and context iterator"
  },
  {
   "property": "C25",
   "status": "proved",
   "theorems": [
    "TreeIter.C25_bfs",
    "TreeIter.C25_preorder",
    "TreeIter.C25_postorder",
    "TreeIter.C25_inorder"
   ],
   "note": "the binary bfs, preorder and postorder collections are instances (binary nodes are tree nodes)"
  },
  {
   "property": "C26",
   "status": "proved",
   "theorems": [
    "TreeIter.C26_bfs",
    "TreeIter.C26_bfs_binary",
    "TreeIter.C26_preorder",
    "TreeIter.C26_preorder_binary",
    "TreeIter.C26_postorder",
    "TreeIter.C26_postorder_owned",
    "TreeIter.C26_postorder_binary",
    "TreeIter.C26_postorder_binary_mut",
    "TreeIter.C26_postorder_binary_owned",
    "TreeIter.C26_inorder",
    "TreeIter.C26_inorder_owned"
   ],
   "note": ""
  },
  {
   "property": "C27",
   "status": "proved",
   "theorems": [
    "TreeIter.C27_general",
    "TreeIter.C27_binary",
    "TreeIter.C27_collection",
    "TreeIter.C27_binary_collection"
   ],
   "note": ""
  },
  {
   "property": "C28",
   "status": "proved",
   "theorems": [
    "TreeIter.C28_general",
    "TreeIter.C28_binary"
   ],
   "note": ""
  },
  {
   "property": "C29",
   "status": "partial",
   "theorems": [
    "TreeIter.C29_false",
    "TreeIter.C29_collection_false",
    "TreeIter.C29_general_partial",
    "TreeIter.C29_binary_partial",
    "TreeIter.C29_collection_partial",
    "TreeIter.C29_binary_collection_partial"
   ],
   "note": "false of the code: the slice is taken before the pipeline advances (C29_false, C29_collection_false, whatever the memory holds). The partial theorems say shape, order and number of calls are right and that the path argument is a slice of the length of the path of the preceding node. Missing: that it is the node's path"
  },
  {
   "property": "C30",
   "status": "proved",
   "theorems": [
    "TreeIter.C30_general",
    "TreeIter.C30_binary"
   ],
   "note": ""
  },
  {
   "property": "C31",
   "status": "proved",
   "theorems": [
    "TreeIter.C31_general",
    "TreeIter.C31_binary"
   ],
   "note": ""
  },
  {
   "property": "C32",
   "status": "partial",
   "theorems": [
    "TreeIter.C32_false",
    "TreeIter.C32_prune_partial",
    "TreeIter.C32_prunePath_partial",
    "TreeIter.C32_values",
    "TreeIter.C32_foldPath_partial",
    "TreeIter.C32_binary",
    "TreeIter.C32_binary_path"
   ],
   "note": "false of the code for general trees (C32_false); the partial theorems say exactly which paths are reported. True for binary trees. Missing for general trees: that the number among siblings counts all kept siblings"
  },
  {
   "property": "C33",
   "status": "proved",
   "theorems": [
    "TreeIter.C33_general",
    "TreeIter.C33_binary"
   ],
   "note": ""
  },
  {
   "property": "C34",
   "status": "proved",
   "theorems": [
    "TreeIter.C34_general",
    "TreeIter.C34_binary"
   ],
   "note": ""
  },
  {
   "property": "C35",
   "status": "proved",
   "theorems": [
    "TreeIter.C35_general",
    "TreeIter.C35_binary"
   ],
   "note": ""
  },
  {
   "property": "C36",
   "status": "proved",
   "theorems": [
    "TreeIter.C36_collect",
    "TreeIter.C36_fold",
    "TreeIter.C36_then_map",
    "TreeIter.C36_then_prune",
    "TreeIter.C36_then_pruneDepth",
    "TreeIter.C36_stateful_differs",
    "TreeIter.C36_binary_collect",
    "TreeIter.C36_binary_foldPath",
    "TreeIter.C36_binary_fold",
    "TreeIter.C36_binary_then_map",
    "TreeIter.C36_binary_then_prune",
    "TreeIter.C36_binary_then_prunePath",
    "TreeIter.C36_binary_then_pruneDepth"
   ],
   "note": "the node-by-node interleaving holds for all stateful closures; equality with the whole-tree operations one after another holds when the earlier closures have no state (C36_stateful_differs shows it needs that: earlier closures are not called below a node a later one drops)"
  },
  {
   "property": "C37",
   "status": "proved",
   "theorems": [
    "TreeIter.C37_prune",
    "TreeIter.C37_pruneDepth",
    "TreeIter.C37_map",
    "TreeIter.C37_fold",
    "TreeIter.C37_binary_prune",
    "TreeIter.C37_binary_pruneDepth",
    "TreeIter.C37_binary_map",
    "TreeIter.C37_binary_fold"
   ],
   "note": ""
  },
  {
   "property": "C38",
   "status": "proved",
   "theorems": [
    "TreeIter.C38_prunePath",
    "TreeIter.C38_foldPath",
    "TreeIter.C38_binary_prunePath",
    "TreeIter.C38_binary_foldPath"
   ],
   "note": "the number of trees is a Nat that does not overflow"
  },
  {
   "property": "C39",
   "status": "proved",
   "theorems": [
    "TreeIter.C39_preorder",
    "TreeIter.C39_preorder_binary",
    "TreeIter.C39_bfs",
    "TreeIter.C39_bfs_binary",
    "TreeIter.C39_preorder_ends",
    "TreeIter.C39_preorder_binary_ends",
    "TreeIter.C39_bfs_ends",
    "TreeIter.C39_bfs_binary_ends",
    "TreeIter.C39_preorder_cut",
    "TreeIter.C39_preorder_binary_cut",
    "TreeIter.C39_bfs_cut",
    "TreeIter.C39_bfs_binary_cut",
    "TreeIter.C39_written"
   ],
   "note": "edits by any stateful client; the traversals with edits are given as relations because edits can make them infinite"
  },
  {
   "property": "C40",
   "status": "proved",
   "theorems": [
    "TreeIter.C40_preorder",
    "TreeIter.C40_preorder_exact",
    "TreeIter.C40_postorder",
    "TreeIter.C40_postorder_exact",
    "TreeIter.C40_inorder",
    "TreeIter.C40_leaves"
   ],
   "note": "sizes between calls; the in-order iterator is covered too"
  },
  {
   "property": "C41",
   "status": "proved",
   "theorems": [
    "TreeIter.C41_bfs",
    "TreeIter.C41_preorder",
    "TreeIter.C41_postorder",
    "TreeIter.C41_inorder"
   ],
   "note": ""
  },
  {
   "property": "C42",
   "status": "proved",
   "theorems": [
    "TreeIter.C42_emits",
    "TreeIter.C42_foldPath",
    "TreeIter.C42_binary_emits"
   ],
   "note": ""
  },
  {
   "property": "C43",
   "status": "proved",
   "theorems": [
    "TreeIter.C43_preorder",
    "TreeIter.C43_postorder",
    "TreeIter.C43_inorder",
    "TreeIter.C43_bfs",
    "TreeIter.C43_binary",
    "TreeIter.C43_leaves"
   ],
   "note": "the loop body touches only the cell of its own round"
  },
  {
   "property": "C44",
   "status": "proved",
   "theorems": [
    "TreeIter.C44_slices",
    "TreeIter.C44_slices_inorder",
    "TreeIter.C44_preorder",
    "TreeIter.C44_postorder",
    "TreeIter.C44_bfs",
    "TreeIter.C44_inorder"
   ],
   "note": "the body writes through the references and does not swap them"
  },
  {
   "property": "C45",
   "status": "proved",
   "theorems": [
    "TreeIter.C45_fold_preorder",
    "TreeIter.C45_fold_postorder",
    "TreeIter.C45_fold_leaves",
    "TreeIter.C45_fold_inorder",
    "TreeIter.C45_fold_calls",
    "TreeIter.C45_map_preorder",
    "TreeIter.C45_collect"
   ],
   "note": ""
  },
  {
   "property": "C46",
   "status": "proved",
   "theorems": [
    "TreeIter.C46_drive",
    "TreeIter.C46_client",
    "TreeIter.C46_drive_binary",
    "TreeIter.C46_never"
   ],
   "note": ""
  },
  {
   "property": "C47",
   "status": "proved",
   "theorems": [
    "TreeIter.C47_preorder",
    "TreeIter.C47_bfs",
    "TreeIter.C47_preorder_ancestors",
    "TreeIter.C47_bfs_ancestors",
    "TreeIter.C47_preorder_context",
    "TreeIter.C47_bfs_context",
    "TreeIter.C47_lazy",
    "TreeIter.C47_bfs_reaches",
    "TreeIter.C47_endless",
    "TreeIter.C47_preorder_misses",
    "TreeIter.C47_preorder_context_binary",
    "TreeIter.C47_bfs_context_binary",
    "TreeIter.C47_inorder",
    "TreeIter.C47_inorder_ancestors",
    "TreeIter.C47_inorder_context",
    "TreeIter.C47_inorder_context_owned",
    "TreeIter.C47_inorder_endless"
   ],
   "note": "the ancestors of bfs up to the first None (C24); contexts assume fewer than 2^64 children per node; general and binary contexts; in-order on trees whose walks to the left end"
  },
  {
   "property": "C48",
   "status": "partial",
   "theorems": [
    "TreeIter.C48_preorder",
    "TreeIter.C48_bfs",
    "TreeIter.C48_postorder",
    "TreeIter.C48_postorder_exact",
    "TreeIter.C48_postorder_all",
    "TreeIter.C48_preorder_context",
    "TreeIter.C48_bfs_context",
    "TreeIter.C48_postorder_context_owned",
    "TreeIter.C48_postorder_context_false",
    "TreeIter.C48_postorder_context_partial",
    "TreeIter.C48_preorder_order",
    "TreeIter.C48_postorder_order",
    "TreeIter.C48_bfs_order"
   ],
   "note": "holds for the plain iterators (with the order in which calls and drops alternate) and for the contexts of preorder, bfs and owned postorder; false for the contexts of borrowed and mutably borrowed postorder (general nodes), where core::ptr::read duplicates the collection: dropped twice, and dropped before the context shows it"
  },
  {
   "property": "C49",
   "status": "partial",
   "theorems": [
    "TreeIter.C49_bfs_ancestors_partial",
    "TreeIter.C49_bfs_ancestors_false",
    "TreeIter.C49_bfs_context_partial",
    "TreeIter.C49_bfs_context_false",
    "TreeIter.C49_bfs_context_binary_partial",
    "TreeIter.C49_bfs_context_binary_false"
   ],
   "note": "no value is ever dropped twice and a completed traversal drops all; false for interrupted traversals, where the values in the cache (MaybeUninit) leak"
  },
  {
   "property": "C50",
   "status": "partial",
   "theorems": [
    "TreeIter.C50_preorder",
    "TreeIter.C50_preorder_ancestors",
    "TreeIter.C50_preorder_context",
    "TreeIter.C50_postorder",
    "TreeIter.C50_postorder_ancestors",
    "TreeIter.C50_postorder_context",
    "TreeIter.C50_postorder_context_owned",
    "TreeIter.C50_bfs",
    "TreeIter.C50_bfs_ancestors",
    "TreeIter.C50_bfs_context",
    "TreeIter.C50_leaves",
    "TreeIter.C50_ancestors_leaves",
    "TreeIter.C50_preorder_leaves_mid",
    "TreeIter.C50_postorder_leaves_mid",
    "TreeIter.C50_preorder_ancestors_leaves_mid",
    "TreeIter.C50_postorder_ancestors_leaves_mid",
    "TreeIter.C50_bfs_leaves",
    "TreeIter.C50_bfs_ancestors_leaves_false",
    "TreeIter.C50_bfs_ancestors_leaves_partial",
    "TreeIter.C50_bfs_ancestors_leaves_single_partial",
    "TreeIter.C50_collection_bfs",
    "TreeIter.C50_collection_preorder",
    "TreeIter.C50_collection_postorder",
    "TreeIter.C50_collection_inorder",
    "TreeIter.C50_collection_bfs_context",
    "TreeIter.C50_collection_bfs_binary_context",
    "TreeIter.C50_collection_preorder_context",
    "TreeIter.C50_collection_preorder_binary_context",
    "TreeIter.C50_collection_postorder_context",
    "TreeIter.C50_collection_postorder_owned_context",
    "TreeIter.C50_collection_inorder_context",
    "TreeIter.C50_collection_inorder_owned_context"
   ],
   "note": "general nodes; false for bfs().attach_ancestors().leaves() on a root without children, whose child iterator is asked twice; depth-first leaves() also called part-way through; contexts of collections with sources that are not fused"
  },
  {
   "property": "C51",
   "status": "proved",
   "theorems": [
    "TreeIter.C51_map",
    "TreeIter.C51_map_binary",
    "TreeIter.C51_map_path",
    "TreeIter.C51_map_path_binary",
    "TreeIter.C51_fold",
    "TreeIter.C51_fold_path",
    "TreeIter.C51_fold_binary",
    "TreeIter.C51_fold_path_binary",
    "TreeIter.C51_prune",
    "TreeIter.C51_prune_binary",
    "TreeIter.C51_prune_path",
    "TreeIter.C51_prune_path_binary",
    "TreeIter.C51_prune_depth",
    "TreeIter.C51_prune_depth_binary"
   ],
   "note": "the closure touches only the cell of its own call; the loops over pruned trees use dfs_preorder() (general) and dfs_inorder() (binary); the slice map_path_mut hands to the closure is wrong as in C29, whose content is an arbitrary function of what the closure has seen"
  },
  {
   "property": "C52",
   "status": "proved",
   "theorems": [
    "TreeIter.C52_cloned",
    "TreeIter.C52_cloned_binary",
    "TreeIter.C52_collect",
    "TreeIter.C52_collect_binary",
    "TreeIter.C52_prune"
   ],
   "note": "references are addresses into one tree; a tree of references built by hand may repeat or permute them"
  },
  {
   "property": "C53",
   "status": "proved",
   "theorems": [
    "TreeIter.C53_bound",
    "TreeIter.C53_exact",
    "TreeIter.C53_root",
    "TreeIter.C53_level"
   ],
   "note": "plain iterators; the capacity of the VecDeque is not modelled"
  },
  {
   "property": "C54",
   "status": "partial",
   "theorems": [
    "TreeIter.C54_preorder_least_false",
    "TreeIter.C54_chain",
    "TreeIter.C54_chain_inorder",
    "TreeIter.C54_preorder_peak",
    "TreeIter.C54_postorder_peak",
    "TreeIter.C54_postorder_partial",
    "TreeIter.C54_bfs_partial"
   ],
   "note": "false on a chain of three nodes, against bfs(), and on a chain of right children against dfs_inorder(); holds against dfs_postorder() on trees with two levels or more, and against bfs() on trees with a level at least as wide, but for one, as the tree is high; entries are counted between calls, the capacity of vectors is not modelled"
  },
  {
   "property": "C55",
   "status": "proved",
   "theorems": [
    "TreeIter.C55_preorder",
    "TreeIter.C55_postorder",
    "TreeIter.C55_bfs",
    "TreeIter.C55_inorder",
    "TreeIter.C55_preorder_context",
    "TreeIter.C55_preorder_context_binary",
    "TreeIter.C55_postorder_context",
    "TreeIter.C55_postorder_context_binary",
    "TreeIter.C55_inorder_context",
    "TreeIter.C55_bfs_context",
    "TreeIter.C55_bfs_context_binary"
   ],
   "note": "values are written to the slice; the slice keeps its length; general contexts are for nodes whose numbers of children fit a usize"
  },
  {
   "property": "C56",
   "status": "proved",
   "theorems": [
    "TreeIter.C56_postorder",
    "TreeIter.C56_postorder_binary",
    "TreeIter.C56_inorder",
    "TreeIter.C56_written"
   ],
   "note": "the client replaces the references in the context, not the nodes behind them; collections of children without drop code (C48)"
  },
  {
   "property": "C57",
   "status": "partial",
   "theorems": [
    "TreeIter.C57_preorder",
    "TreeIter.C57_postorder",
    "TreeIter.C57_inorder",
    "TreeIter.C57_bfs",
    "TreeIter.C57_preorder_leaves",
    "TreeIter.C57_postorder_leaves",
    "TreeIter.C57_inorder_leaves",
    "TreeIter.C57_bfs_leaves",
    "TreeIter.C57_preorder_context",
    "TreeIter.C57_preorder_context_binary",
    "TreeIter.C57_bfs_context",
    "TreeIter.C57_bfs_context_binary",
    "TreeIter.C57_collection_preorder_context",
    "TreeIter.C57_collection_preorder_context_binary",
    "TreeIter.C57_collection_bfs_context",
    "TreeIter.C57_collection_bfs_context_binary",
    "TreeIter.C57_postorder_context_false",
    "TreeIter.C57_postorder_context_binary_false",
    "TreeIter.C57_inorder_context_false",
    "TreeIter.C57_postorder_context_partial",
    "TreeIter.C57_postorder_context_binary_partial",
    "TreeIter.C57_inorder_context_partial",
    "TreeIter.C57_collection_postorder_context_partial",
    "TreeIter.C57_collection_postorder_context_binary_partial",
    "TreeIter.C57_collection_inorder_context_partial",
    "TreeIter.C57_lawful",
    "TreeIter.C57_lawful_binary",
    "TreeIter.C57_lawful_collection"
   ],
   "note": "holds for ancestors, for the leaves asked for at any point of an ancestor traversal, and for preorder and breadth-first contexts, of single trees and of collections; false for postorder and in-order contexts, whose children are made from copied references or raw pointers to nodes shown before or later; there it holds for clients that do not use children; what get_mut lends obeys the laws of a lens; a program that makes a breadth-first context read uninitialised memory (C58) is not followed further"
  },
  {
   "property": "C58",
   "status": "partial",
   "theorems": [
    "TreeIter.C58_bfs_ancestors",
    "TreeIter.C58_bfs_leaves",
    "TreeIter.C58_bfs_context_partial",
    "TreeIter.C58_bfs_context_binary_partial",
    "TreeIter.C58_collection_bfs_context_partial",
    "TreeIter.C58_collection_bfs_context_binary_partial",
    "TreeIter.C58_bfs_context_false",
    "TreeIter.C58_bfs_context_binary_false",
    "TreeIter.C58_collection_bfs_context_false"
   ],
   "note": "proved for ancestors and their leaves; false for contexts when the program replaces a context by the one of a node further up (witness: clone the context of the root, restore it at the fifth node); proved for contexts when the program does not shorten the list of ancestors"
  },
  {
   "property": "C59",
   "status": "partial",
   "theorems": [
    "TreeIter.C59_map_path",
    "TreeIter.C59_map_path_iff",
    "TreeIter.C59_map_path_partial",
    "TreeIter.C59_map_path_binary",
    "TreeIter.C59_map_path_binary_iff",
    "TreeIter.C59_map_path_false",
    "TreeIter.C59_map_path_binary_false",
    "TreeIter.C59_collection_map_path",
    "TreeIter.C59_collection_map_path_binary",
    "TreeIter.C59_collection_map_path_iff",
    "TreeIter.C59_collection_map_path_binary_iff",
    "TreeIter.C59_collection_map_path_false",
    "TreeIter.C59_stages_partial",
    "TreeIter.C59_stages_depth_partial",
    "TreeIter.C59_binary_stages_partial",
    "TreeIter.C59_binary_stages_depth_partial",
    "TreeIter.C59_prune",
    "TreeIter.C59_prune_iff",
    "TreeIter.C59_prune_false",
    "TreeIter.C59_collection_stages_partial",
    "TreeIter.C59_maps",
    "TreeIter.C59_binary_maps",
    "TreeIter.C59_collection_maps",
    "TreeIter.C59_binary_collection_maps"
   ],
   "note": "false: whatever the growth of vectors there is a tree, and on every collection of two trees or more the first call on the second tree gets a freed slice; proved are exactly the calls that get one, and that none does on a tree whose nodes all lie less deep than the first allocation has room for (four elements with the standard library). After other stages: exactly for any number of map_tree stages, on trees and collections, general and binary (as directly after into_pipeline()); exactly for prune with a closure without state on single general trees (false there too); on single trees for all chains, that no call gets a freed slice on trees no higher than the first allocation has room for, or on all trees after prune_depth(d) with d at most that; on collections of general trees likewise if the chain has a prune or prune_path stage. Missing: exact statements for other chains, and collections after prune_depth alone or, for binary trees, after stages that drop nodes"
  },
  {
   "property": "C60",
   "status": "proved",
   "theorems": [
    "TreeIter.C60_like_cut",
    "TreeIter.C60_collect",
    "TreeIter.C60_fold",
    "TreeIter.C60_emits",
    "TreeIter.C60_prune_depth",
    "TreeIter.C60_endless",
    "TreeIter.C60_binary_collect",
    "TreeIter.C60_binary_foldPath",
    "TreeIter.C60_binary_prune_depth"
   ],
   "note": "general and binary trees; map_path and collections of trees are not covered; loops carry fuel, and the theorems say how much is enough"
  },
  {
   "property": "C61",
   "status": "proved",
   "theorems": [
    "TreeIter.C61_preorder",
    "TreeIter.C61_preorder_ancestors",
    "TreeIter.C61_preorder_context",
    "TreeIter.C61_bfs",
    "TreeIter.C61_bfs_children",
    "TreeIter.C61_bfs_ancestors",
    "TreeIter.C61_bfs_context"
   ],
   "note": "general nodes; breadth first with ancestors up to and including the first None; contexts for call numbers below 2^64; postorder, leaves and collections are not covered"
  },
  {
   "property": "C62",
   "status": "partial",
   "theorems": [
    "TreeIter.C62_preorder",
    "TreeIter.C62_preorder_ancestors",
    "TreeIter.C62_postorder",
    "TreeIter.C62_bfs",
    "TreeIter.C62_bfs_ancestors",
    "TreeIter.C62_preorder_leaves",
    "TreeIter.C62_postorder_leaves",
    "TreeIter.C62_bfs_leaves",
    "TreeIter.C62_bfs_leaves_ancestors",
    "TreeIter.C62_inorder",
    "TreeIter.C62_inorder_context",
    "TreeIter.C62_inorder_context_owned",
    "TreeIter.C62_inorder_ancestors",
    "TreeIter.C62_preorder_leaves_mid",
    "TreeIter.C62_preorder_attach",
    "TreeIter.C62_postorder_attach",
    "TreeIter.C62_bfs_attach",
    "TreeIter.C62_inorder_attach",
    "TreeIter.C62_postorder_ancestors_false",
    "TreeIter.C62_postorder_ancestors_partial",
    "TreeIter.C62_postorder_context_false",
    "TreeIter.C62_postorder_context_partial",
    "TreeIter.C62_preorder_context_false",
    "TreeIter.C62_preorder_context_partial",
    "TreeIter.C62_preorder_context_binary_false",
    "TreeIter.C62_preorder_context_binary_partial",
    "TreeIter.C62_bfs_context_false",
    "TreeIter.C62_bfs_context_partial",
    "TreeIter.C62_bfs_context_dead",
    "TreeIter.C62_leaves_ancestors_false",
    "TreeIter.C62_leaves_ancestors_partial",
    "TreeIter.C62_postorder_ancestors_exact",
    "TreeIter.C62_leaves_ancestors_exact",
    "TreeIter.C62_postorder_leaves_ancestors_exact",
    "TreeIter.C62_postorder_context_exact",
    "TreeIter.C62_preorder_context_exact",
    "TreeIter.C62_preorder_context_binary_exact",
    "TreeIter.C62_preorder_context_order",
    "TreeIter.C62_preorder_context_binary_order",
    "TreeIter.C62_postorder_context_order",
    "TreeIter.C62_postorder_ancestors_order",
    "TreeIter.C62_leaves_ancestors_mid_partial",
    "TreeIter.C62_postorder_context_binary_false",
    "TreeIter.C62_postorder_context_binary_partial",
    "TreeIter.C62_postorder_context_binary_exact",
    "TreeIter.C62_postorder_context_binary_mut_exact",
    "TreeIter.C62_postorder_context_binary_owned_exact",
    "TreeIter.C62_postorder_context_owned_exact",
    "TreeIter.C62_postorder_context_binary_order",
    "TreeIter.C62_bfs_context_binary_false",
    "TreeIter.C62_bfs_context_binary_partial",
    "TreeIter.C62_bfs_context_binary_dead",
    "TreeIter.C62_bfs_leaves_mid"
   ],
   "note": "false for postorder and preorder contexts, postorder ancestors, breadth-first contexts and depth-first leaves with ancestors: the _false theorems have the witnesses, the _partial ones give the replies up to the first panic, the _exact ones and C62_bfs_context_dead and C62_bfs_context_binary_dead say what every call answers after any number of panics, the _order ones that the order, the paths and the children stay right and only ancestors are missing; breadth-first with ancestors up to the first None; C62_leaves_ancestors_mid_partial has attach_ancestors().leaves() after any number of calls, up to the order and the missing ancestors; collections are in C76, panics in the next of a child iterator in C79"
  },
  {
   "property": "C63",
   "status": "proved",
   "theorems": [
    "TreeIter.C63_pipeline",
    "TreeIter.C63_pipeline_depth",
    "TreeIter.C63_binary",
    "TreeIter.C63_binary_depth",
    "TreeIter.C63_collection",
    "TreeIter.C63_collection_number",
    "TreeIter.C63_collection_binary"
   ],
   "note": "counts the entries of the vectors; what a child iterator or a closure holds itself is not counted; the bound d of prune_depth(d) is for single trees; map_path is left out"
  },
  {
   "property": "C64",
   "status": "proved",
   "theorems": [
    "TreeIter.C64_trees",
    "TreeIter.C64_fold",
    "TreeIter.C64_foldPath",
    "TreeIter.C64_then_map",
    "TreeIter.C64_then_prune",
    "TreeIter.C64_then_pruneDepth",
    "TreeIter.C64_binary_trees",
    "TreeIter.C64_binary_fold",
    "TreeIter.C64_binary_foldPath",
    "TreeIter.C64_binary_then_map",
    "TreeIter.C64_binary_then_prune",
    "TreeIter.C64_binary_then_pruneDepth"
   ],
   "note": "map_path is left out (C29, C59); on general trees prune_path only before the stages that drop nodes (C32), fold_path only after chains that drop no node by a closure"
  },
  {
   "property": "C65",
   "status": "proved",
   "theorems": [
    "TreeIter.C65_bfs",
    "TreeIter.C65_preorder",
    "TreeIter.C65_postorder",
    "TreeIter.C65_inorder",
    "TreeIter.C65_every",
    "TreeIter.C65_endless",
    "TreeIter.C65_bfs_context",
    "TreeIter.C65_bfs_context_binary",
    "TreeIter.C65_preorder_context",
    "TreeIter.C65_preorder_context_binary",
    "TreeIter.C65_postorder_context",
    "TreeIter.C65_postorder_context_owned",
    "TreeIter.C65_postorder_context_binary",
    "TreeIter.C65_postorder_context_binary_mut",
    "TreeIter.C65_postorder_context_binary_owned",
    "TreeIter.C65_inorder_context",
    "TreeIter.C65_inorder_context_owned"
   ],
   "note": "the plain iterators of binary nodes are those of general nodes with the children slots flattened; breadth-first contexts: fewer than 2^64 children per node"
  },
  {
   "property": "C66",
   "status": "proved",
   "theorems": [
    "TreeIter.C66_found",
    "TreeIter.C66_unwritten",
    "TreeIter.C66_written",
    "TreeIter.C66_elsewhere",
    "TreeIter.C66_above",
    "TreeIter.C66_listings",
    "TreeIter.C66_again",
    "TreeIter.C66_nested",
    "TreeIter.C66_apart",
    "TreeIter.C66_collection",
    "TreeIter.C66_loop_preorder",
    "TreeIter.C66_loop_postorder",
    "TreeIter.C66_loop_bfs",
    "TreeIter.C66_found_binary",
    "TreeIter.C66_unwritten_binary",
    "TreeIter.C66_written_binary",
    "TreeIter.C66_elsewhere_binary",
    "TreeIter.C66_above_binary",
    "TreeIter.C66_listings_binary",
    "TreeIter.C66_again_binary",
    "TreeIter.C66_nested_binary",
    "TreeIter.C66_apart_binary",
    "TreeIter.C66_collection_binary",
    "TreeIter.C66_loop_preorder_binary",
    "TreeIter.C66_loop_postorder_binary",
    "TreeIter.C66_loop_bfs_binary",
    "TreeIter.C66_loop_inorder"
   ],
   "note": "for Tree and BinaryTree; a user type may hand out references to anything; in the loops the trees have at most 2^64 children per node (breadth first: fewer)"
  },
  {
   "property": "C67",
   "status": "proved",
   "theorems": [
    "TreeIter.C67_trees",
    "TreeIter.C67_trees_all",
    "TreeIter.C67_fold",
    "TreeIter.C67_fold_all",
    "TreeIter.C67_foldPath",
    "TreeIter.C67_foldPath_all",
    "TreeIter.C67_binary_trees",
    "TreeIter.C67_binary_trees_all",
    "TreeIter.C67_binary_fold",
    "TreeIter.C67_binary_fold_all",
    "TreeIter.C67_binary_foldPath",
    "TreeIter.C67_binary_foldPath_all",
    "TreeIter.C67_binary_starves"
   ],
   "note": "each tree of the source is finite; the chains are those of C64 (no prune_path after a prune or prune_path on general trees, fold_path on general trees after chains that drop no node by a closure); the limit is shown for binary trees"
  },
  {
   "property": "C68",
   "status": "proved",
   "theorems": [
    "TreeIter.C68_preorder",
    "TreeIter.C68_postorder",
    "TreeIter.C68_bfs",
    "TreeIter.C68_inorder",
    "TreeIter.C68_binary_preorder",
    "TreeIter.C68_binary_postorder",
    "TreeIter.C68_binary_bfs",
    "TreeIter.C68_map",
    "TreeIter.C68_binary_map",
    "TreeIter.C68_fold",
    "TreeIter.C68_binary_fold",
    "TreeIter.C68_foldPath",
    "TreeIter.C68_binary_foldPath",
    "TreeIter.C68_prune",
    "TreeIter.C68_binary_prune",
    "TreeIter.C68_prunePath",
    "TreeIter.C68_binary_prunePath",
    "TreeIter.C68_pruneDepth",
    "TreeIter.C68_binary_pruneDepth"
   ],
   "note": "the trees are those of a Vec<Tree> or Vec<BinaryTree>; a body or closure touches only the cell of its own round; the state of the closure is given once the results are all taken, and in between by C69; path versions on general trees: at most 2^64 children per node; map_path_each_mut is C29 (false) and not restated"
  },
  {
   "property": "C69",
   "status": "proved",
   "theorems": [
    "TreeIter.C69_map",
    "TreeIter.C69_prune",
    "TreeIter.C69_prunePath",
    "TreeIter.C69_fold",
    "TreeIter.C69_foldPath",
    "TreeIter.C69_chain",
    "TreeIter.C69_chain_fold",
    "TreeIter.C69_chain_foldPath",
    "TreeIter.C69_binary_chain_fold",
    "TreeIter.C69_binary_map",
    "TreeIter.C69_binary_prune",
    "TreeIter.C69_binary_prunePath",
    "TreeIter.C69_binary_fold",
    "TreeIter.C69_binary_foldPath",
    "TreeIter.C69_binary_chain",
    "TreeIter.C69_binary_chain_foldPath",
    "TreeIter.C69_mut_map",
    "TreeIter.C69_mut_binary_map",
    "TreeIter.C69_mut_fold",
    "TreeIter.C69_mut_binary_fold",
    "TreeIter.C69_mut_foldPath",
    "TreeIter.C69_mut_binary_foldPath"
   ],
   "note": "the chains are those of C64; path versions on general trees: at most 2^64 children per node; map_path_each is C29 (false) and not restated; prune_depth_each has no closure"
  },
  {
   "property": "C70",
   "status": "partial",
   "theorems": [
    "TreeIter.C70_values",
    "TreeIter.C70_collect_partial",
    "TreeIter.C70_fold_partial",
    "TreeIter.C70_collect_false",
    "TreeIter.C70_fold_false",
    "TreeIter.C70_binary_collect_partial",
    "TreeIter.C70_binary_fold_partial",
    "TreeIter.C70_binary_values_false",
    "TreeIter.C70_binary_fold_false",
    "TreeIter.C70_fold_path_partial",
    "TreeIter.C70_fold_path_exact",
    "TreeIter.C70_fold_path_false",
    "TreeIter.C70_binary_fold_path_exact",
    "TreeIter.C70_binary_fold_exact"
   ],
   "note": "false as stated: after next() the first item left is taken for a root at depth 0 though its real depth is larger, so siblings become children (C70_collect_false, C70_fold_false), in binary trees children overwrite each other (C70_binary_values_false), and fold_tree sees other slots than collect_tree (C70_binary_fold_false). Proved for all trees, chains and k: never a panic, the values left in preorder on general trees (C70_values), the exact tree collected (general: by depth; binary: by depth and slot), fold_tree on general trees folds that tree, and on binary trees calls its closure once per value left in a stated order. The positions told to the closure of fold_path are neither the paths in the tree nor the places in the collected tree (C70_fold_path_false); what fold_path gives and tells, and the value of fold_tree on binary trees, are proved exactly (the _exact theorems, C70_fold_path_partial for pipelines with stages that remove nodes)."
  },
  {
   "property": "C71",
   "status": "partial",
   "theorems": [
    "TreeIter.C71_replies",
    "TreeIter.C71_world",
    "TreeIter.C71_binary_replies",
    "TreeIter.C71_binary_world",
    "TreeIter.C71_map",
    "TreeIter.C71_depth_partial",
    "TreeIter.C71_binary_depth_partial",
    "TreeIter.C71_depth_false"
   ],
   "note": "false as stated for prune_depth: it prunes only after the inner next() has returned, so when a closure before it panics at a node at the depth limit and the panic is caught, the nodes below come out (C71_depth_false). Everything else is proved for all trees, chains, closures and panics, exactly (C71_replies, C71_binary_replies; the closures' state in C71_world, C71_binary_world), and the depth limit if no closure before prune_depth panics. Not covered: map_path; prune_path is C73, collections are C72 and C73"
  },
  {
   "property": "C72",
   "status": "partial",
   "theorems": [
    "TreeIter.C72_trees",
    "TreeIter.C72_fold",
    "TreeIter.C72_advanced",
    "TreeIter.C72_whole_partial",
    "TreeIter.C72_map_partial",
    "TreeIter.C72_lost_false",
    "TreeIter.C72_part_false"
   ],
   "note": "false as stated: the stack of Trees::next and Fold::next is local to the call, so a panic on a tree loses what was built of it and the rest comes out as a tree of its own (C72_part_false), and a panic at the root of the next tree loses the complete tree before it (C72_lost_false). Proved for all collections, chains, closures and panics: what every call gives, exactly (C72_trees, C72_fold), also after calls by hand (C72_advanced), and that a tree comes out whole if no panic falls on it nor on what comes next (C72_whole_partial, C72_map_partial). The closure of fold_trees has no state and does not panic; closures of fold_trees that have or do are C74. Binary trees and fold_path are C75. Not covered: map_path"
  },
  {
   "property": "C73",
   "status": "partial",
   "theorems": [
    "TreeIter.C73_replies_partial",
    "TreeIter.C73_world_partial",
    "TreeIter.C73_seen",
    "TreeIter.C73_skip",
    "TreeIter.C73_binary_replies",
    "TreeIter.C73_binary_world",
    "TreeIter.C73_coll_replies_partial",
    "TreeIter.C73_coll_world_partial",
    "TreeIter.C73_binary_coll_replies",
    "TreeIter.C73_binary_coll_world",
    "TreeIter.C73_false"
   ],
   "note": "false of general trees with a prune or prune_path stage: these keep a path of their own, which is brought up to date only after inner.next() has returned, so after a caught panic of a closure before the stage current_path() is still the position of the node before (C73_false). Proved without restriction for binary trees and collections of them; for general trees and collections of them if no closure or client that looks at positions comes after another prune or prune_path stage (at most 2^64 children per node). map_path is not covered"
  },
  {
   "property": "C74",
   "status": "partial",
   "theorems": [
    "TreeIter.C74_fold",
    "TreeIter.C74_advanced",
    "TreeIter.C74_whole_partial",
    "TreeIter.C74_lost_false",
    "TreeIter.C74_part_false"
   ],
   "note": "false as stated: Fold::next takes a value from the pipeline before it folds what this value shows to be complete, so a panic of the closure at the root of one tree loses the root of the next, and with it the whole next tree if that is a single node (C74_lost_false); and the rest of a tree after a panic is folded as a tree of its own (C74_part_false). Proved for all collections, stages, closures with state and panics: what every call gives, exactly (C74_fold), also after calls by hand (C74_advanced), and that a tree comes out folded if the closure panics neither on its values nor on those of the tree before (C74_whole_partial). Binary trees and fold_path are C75"
  },
  {
   "property": "C75",
   "status": "partial",
   "theorems": [
    "TreeIter.C75_fold_path_partial",
    "TreeIter.C75_binary_fold",
    "TreeIter.C75_binary_fold_path",
    "TreeIter.C75_binary_trees",
    "TreeIter.C75_binary_fold_advanced",
    "TreeIter.C75_binary_fold_path_advanced",
    "TreeIter.C75_binary_map_partial",
    "TreeIter.C75_lost_false",
    "TreeIter.C75_position_false"
   ],
   "note": "false as stated: after a caught panic the values that are left are put together by depth only, so two of them may get into the same slot of a binary node and the later one overwrites the earlier (C75_lost_false), and the closure of fold_path is told positions that are not those of the nodes (C75_position_false). Proved for all binary collections, chains, closures with state and panics: what every call of trees(), fold_trees() and fold_path() gives, exactly, also after calls by hand, and that a tree comes out of trees() whole after map_trees if nothing panics on it or on the next root (C75_binary_map_partial); the same exact answers for fold_path on general collections without prune and prune_path stages. Missing: fold_path on general collections after prune or prune_path"
  },
  {
   "property": "C76",
   "status": "partial",
   "theorems": [
    "TreeIter.C76_preorder",
    "TreeIter.C76_postorder",
    "TreeIter.C76_bfs",
    "TreeIter.C76_inorder",
    "TreeIter.C76_inorder_context",
    "TreeIter.C76_inorder_context_owned",
    "TreeIter.C76_preorder_context",
    "TreeIter.C76_preorder_binary_context",
    "TreeIter.C76_postorder_context",
    "TreeIter.C76_postorder_owned_context",
    "TreeIter.C76_postorder_binary_context",
    "TreeIter.C76_postorder_binary_mut_context",
    "TreeIter.C76_postorder_binary_owned_context",
    "TreeIter.C76_bfs_context",
    "TreeIter.C76_bfs_binary_context",
    "TreeIter.C76_bfs_context_false",
    "TreeIter.C76_preorder_context_exact",
    "TreeIter.C76_preorder_binary_context_exact",
    "TreeIter.C76_postorder_context_exact",
    "TreeIter.C76_postorder_owned_context_exact",
    "TreeIter.C76_postorder_binary_context_exact",
    "TreeIter.C76_postorder_binary_mut_context_exact",
    "TreeIter.C76_postorder_binary_owned_context_exact"
   ],
   "note": "false for breadth-first contexts if get_value_and_children panics below a root (C76_bfs_context_false: every later call panics and later trees are never reached), and for the preorder and postorder contexts of C62; the theorems have the plain traversals and in-order contexts with panics of both kinds, all other contexts with panics of the collection's iterator, preorder and postorder contexts also with panics of get_value_and_children (the _exact theorems, which say what is lost), breadth-first contexts also with panics at roots"
  },
  {
   "property": "C77",
   "status": "proved",
   "theorems": [
    "TreeIter.C77_preorder",
    "TreeIter.C77_postorder",
    "TreeIter.C77_bfs",
    "TreeIter.C77_preorder_context",
    "TreeIter.C77_postorder_context_owned",
    "TreeIter.C77_bfs_context",
    "TreeIter.C77_preorder_held",
    "TreeIter.C77_postorder_held",
    "TreeIter.C77_preorder_ancestors",
    "TreeIter.C77_postorder_ancestors",
    "TreeIter.C77_bfs_ancestors",
    "TreeIter.C77_leaves",
    "TreeIter.C77_leaves_ancestors",
    "TreeIter.C77_bfs_leaves",
    "TreeIter.C77_bfs_leaves_ancestors"
   ],
   "note": "the borrowed postorder contexts hold every collection twice (C48_postorder_context_false) and are not claimed; leaves() taken part-way is not claimed"
  },
  {
   "property": "C78",
   "status": "partial",
   "theorems": [
    "TreeIter.C78_context_false",
    "TreeIter.unopened_not_whole",
    "TreeIter.C78_preorder_context_partial",
    "TreeIter.C78_preorder_context_binary_partial",
    "TreeIter.C78_bfs_context_partial",
    "TreeIter.C78_bfs_context_binary_partial",
    "TreeIter.C78_postorder_context_partial",
    "TreeIter.C78_inorder_context_false",
    "TreeIter.C78_inorder_context_partial",
    "TreeIter.C78_inorder_context_owned",
    "TreeIter.C78_preorder_ancestors",
    "TreeIter.C78_bfs_ancestors",
    "TreeIter.C78_inorder_ancestors",
    "TreeIter.C78_postorder_ancestors_partial",
    "TreeIter.C78_leaves_ancestors_partial"
   ],
   "note": "false for contexts: the path already leads to the node that panicked, the ancestors end with its parent, the children are missing (postorder: those of the node before); the partial theorems say this exactly for every tree at the first panic; in order the path and the ancestors are those of the parent and the children those of the node answered last, after every panic; preorder, breadth-first and in-order slices are right after every panic, postorder and leaves at the first one"
  },
  {
   "property": "C79",
   "status": "partial",
   "theorems": [
    "TreeIter.C79_preorder",
    "TreeIter.C79_postorder",
    "TreeIter.C79_bfs",
    "TreeIter.C79_preorder_leaves",
    "TreeIter.C79_postorder_leaves",
    "TreeIter.C79_preorder_ancestors",
    "TreeIter.C79_bfs_ancestors",
    "TreeIter.C79_bfs_leaves_false",
    "TreeIter.C79_bfs_leaves",
    "TreeIter.C79_bfs_leaves_partial",
    "TreeIter.C79_bfs_leaves_ancestors_false",
    "TreeIter.C79_bfs_leaves_ancestors_partial",
    "TreeIter.C79_postorder_ancestors_false",
    "TreeIter.C79_postorder_ancestors_partial",
    "TreeIter.C79_leaves_ancestors_false",
    "TreeIter.C79_leaves_ancestors_partial",
    "TreeIter.C79_preorder_context_false",
    "TreeIter.C79_preorder_context_dead",
    "TreeIter.C79_preorder_context_partial",
    "TreeIter.C79_postorder_context_false",
    "TreeIter.C79_postorder_context_partial",
    "TreeIter.C79_bfs_context_false",
    "TreeIter.C79_bfs_context_partial",
    "TreeIter.C79_bfs_context_dead",
    "TreeIter.C79_preorder_leaves_mid",
    "TreeIter.C79_bfs_leaves_mid",
    "TreeIter.C79_leaves_ancestors_mid_partial"
   ],
   "note": "holds for preorder, postorder, breadth first, depth-first leaves, and preorder and breadth-first slices (the latter up to the first None); false for breadth-first leaves, which lose a node whose child iterator panics at the first call with all that is below it (C79_bfs_leaves says exactly what is left), for postorder and leaves slices and for all contexts: these are right up to the first panic, breadth-first leaves with ancestors as long as no first call panics; leaves() taken part-way of preorder and breadth-first traversals is covered, with ancestors up to order and the front of the slices"
  },
  {
   "property": "C80",
   "status": "proved",
   "theorems": [
    "TreeIter.C80_preorder",
    "TreeIter.C80_postorder",
    "TreeIter.C80_bfs",
    "TreeIter.C80_inorder",
    "TreeIter.C80_preorder_ancestors",
    "TreeIter.C80_postorder_ancestors",
    "TreeIter.C80_inorder_ancestors",
    "TreeIter.C80_preorder_context",
    "TreeIter.C80_postorder_context",
    "TreeIter.C80_postorder_context_owned",
    "TreeIter.C80_preorder_leaves",
    "TreeIter.C80_postorder_leaves",
    "TreeIter.C80_inorder_leaves",
    "TreeIter.C80_bfs_leaves",
    "TreeIter.C80_preorder_ancestors_leaves",
    "TreeIter.C80_postorder_ancestors_leaves",
    "TreeIter.C80_bfs_ancestors_polls",
    "TreeIter.C80_bfs_ancestors",
    "TreeIter.C80_bfs_ancestors_quadratic",
    "TreeIter.C80_preorder_context_binary",
    "TreeIter.C80_postorder_context_binary",
    "TreeIter.C80_postorder_context_binary_mut",
    "TreeIter.C80_postorder_context_binary_owned",
    "TreeIter.C80_bfs_context_binary",
    "TreeIter.C80_inorder_context_owned",
    "TreeIter.C80_inorder_context",
    "TreeIter.C80_bfs_ancestors_upper",
    "TreeIter.C80_bfs_context_polls",
    "TreeIter.C80_bfs_context_upper",
    "TreeIter.C80_bfs_context",
    "TreeIter.C80_bfs_context_quadratic",
    "TreeIter.C80_collection_preorder",
    "TreeIter.C80_collection_postorder",
    "TreeIter.C80_collection_bfs",
    "TreeIter.C80_collection_inorder",
    "TreeIter.C80_collection_preorder_context",
    "TreeIter.C80_collection_postorder_context",
    "TreeIter.C80_collection_postorder_context_owned",
    "TreeIter.C80_collection_bfs_context",
    "TreeIter.C80_collection_preorder_context_binary",
    "TreeIter.C80_collection_inorder_context_owned",
    "TreeIter.C80_collection_inorder_context"
   ],
   "note": "work is counted in calls of next of child iterators (slots taken and nodes split in order; rounds of the loops for the breadth-first lower bound); the counts are placed by hand beside the loops of the models; not counted: rounds of the cache of binary breadth-first contexts, breadth-first leaves with ancestors, and pipelines"
  },
  {
   "property": "C81",
   "status": "proved",
   "theorems": [
    "TreeIter.C81_preorder",
    "TreeIter.C81_preorder_ancestors",
    "TreeIter.C81_postorder",
    "TreeIter.C81_postorder_ancestors",
    "TreeIter.C81_leaves",
    "TreeIter.C81_inorder",
    "TreeIter.C81_bfs",
    "TreeIter.C81_bfs_leaves",
    "TreeIter.C81_collection_preorder",
    "TreeIter.C81_collection_postorder",
    "TreeIter.C81_collection_inorder",
    "TreeIter.C81_collection_bfs",
    "TreeIter.C81_plain_preorder",
    "TreeIter.C81_plain_preorder_ancestors",
    "TreeIter.C81_plain_postorder",
    "TreeIter.C81_plain_postorder_ancestors",
    "TreeIter.C81_plain_leaves",
    "TreeIter.C81_plain_bfs",
    "TreeIter.C81_plain_bfs_leaves",
    "TreeIter.C81_plain_inorder",
    "TreeIter.C81_preorder_context",
    "TreeIter.C81_postorder_context",
    "TreeIter.C81_inorder_context",
    "TreeIter.C81_inorder_ancestors",
    "TreeIter.C81_bfs_ancestors",
    "TreeIter.C81_bfs_context",
    "TreeIter.C81_leaves_ancestors",
    "TreeIter.C81_bfs_leaves_ancestors",
    "TreeIter.C81_plain_leaves_ancestors",
    "TreeIter.C81_plain_bfs_ancestors",
    "TreeIter.C81_plain_bfs_leaves_ancestors",
    "TreeIter.C81_plain_inorder_ancestors",
    "TreeIter.C81_plain_preorder_context",
    "TreeIter.C81_plain_preorder_context_binary",
    "TreeIter.C81_plain_postorder_context",
    "TreeIter.C81_plain_postorder_context_owned",
    "TreeIter.C81_plain_postorder_context_binary",
    "TreeIter.C81_plain_postorder_context_binary_owned",
    "TreeIter.C81_plain_inorder_context",
    "TreeIter.C81_plain_inorder_context_owned",
    "TreeIter.C81_plain_bfs_context",
    "TreeIter.C81_plain_bfs_context_binary",
    "TreeIter.C81_plain_collection_preorder",
    "TreeIter.C81_plain_collection_postorder",
    "TreeIter.C81_plain_collection_inorder",
    "TreeIter.C81_plain_collection_bfs"
   ],
   "note": "into_iter is taken to be part of get_value_and_children, as the code calls it right after; panics are not part of this model (C62, C79); leaves() taken part-way, writes to the ancestors breadth first, and pipelines are not covered; the plain theorems say that on nodes that share no state loops and visitors go through the lists of C01-C14, C17, C19, C20, C22 and C25"
  }
 ]
}