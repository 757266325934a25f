# Design

Subject: `tree_iterators_rs` 3.6.0 in `/repo` (Rust, `no_std`).  All paths below are relative to
`/repo/tree_iterators_rs/src` unless they start with `/repo`.  Nothing in `/repo` is built or run:
the model is a reading of the source.

## What is modelled and how

* **Trees.**  `Tree α` (value, list of children) and `BinTree α` (value, two optional children) follow
  `prelude.rs` 94-103 and 128-135.  The iterators in the crate are generic over user types that
  implement `get_value_and_children*`; the model keeps that generality with a node interface: a node
  type `N` with a function `split : N → V × List N` (the trait method, with the child iterator
  modelled as the list of what it will yield) and an unfolding of `N` into a `Tree V` that obeys
  `unfold n = node (split n).1 ((split n).2.map unfold)` (i.e. the node denotes a finite tree).
  The models of the preorder and breadth-first iterators and of `at_path` ask for `split` only (`SplitNode`), so they also
  cover infinite trees (C47); so does `LazyPipe` for pipelines (C60), and `Poll` for infinitely many children (C61); the in-order machines need only that walks to the left end (`LeftNode`); the others need finiteness (`TreeNode`) for their loops to end.
  Binary nodes have two optional slots; `BinaryChildren` (prelude.rs 159-160) flattens the slots.
* **Ownership.**  The owned, borrowed and mutably borrowed iterators are generated from the same
  macros (`*_iterators/mod.rs`).  One Lean definition per macro therefore stands for the three.
  Where the three files have their own copy of the logic (post-order and in-order contexts) the copies
  are modelled separately.  `COVERAGE.md` lists every function of the crate with the modules that model it; for functions
  without a citation of their own (other ownership modes, constructors, delegating methods) it gives the reason.  The
  copies were compared line by line with the copy that is modelled.
* **State machines.**  Each iterator is a state (its Rust fields) and a `next`/`advance` function
  returning the new state.  A `Vec` used as a stack is a `List` whose *head is the top of the
  stack*; slices handed to the user (`ancestors()`, `path()`) are given root first, i.e. reversed.
  `VecDeque` is a `List` with its front first.  A Rust iterator over children is the list of the
  items still to come.
* **Statements.**  The n-th call of `next` on a fresh iterator equals the n-th entry of a recursive
  specification list (`spec[n]?`).  This fixes order, completeness, absence of duplicates and
  "None forever" at once.  Specifications are separate small recursive functions on `Tree`/`BinTree`.
* **Panics** are explicit error values.  Loops are well-founded recursion; where the Rust loop could in
  principle run forever (BFS cache rotation) the model is a function with explicit fuel whose
  exhaustion is an error value, and the theorem shows a sufficient fuel exists (termination).
* **`MaybeUninit`** values (BFS caches) are `Option`; reading an uninitialised one is an error value.
* **Integers.**  `usize` path segments use arithmetic modulo 2^64 where the code relies on wrapping
  (`usize::MAX` sentinel, `wrapping_add`); theorems then assume fewer than 2^64 children per node.
  Lengths and counters that cannot wrap in practice are `Nat`.
* **Closures** (`FnMut`) are functions `σ → A → σ × B` over an arbitrary state type, so call order
  and call count are part of every statement.

## Layout

* `lean/Verif/Tree.lean`: trees and the traversal orders, the specification of C01-C04.
* `lean/Verif/Node.lean`: the node interface, positions (path, ancestors, item), contexts, `nthCall` and friends.
* `lean/Verif/Model/`: the code. Every definition cites file and lines.
* `lean/Verif/Spec/`: specifications of the later properties. They do not import `Model/`.
* `lean/Verif/Lemmas/`: helper lemmas, invariants.
* `lean/Verif/Props/`: the property theorems (`Cnn_...`), each with an evaluated example beside it.
  `Props/Conformance.lean` replays the crate's own tests against the model; these are tests of the reading, not proofs.
* `seeded/LOG.jsonl`: wrong programs tried against the theorems. `seeded/AUTO.jsonl`: automatic one-token edits of an older snapshot.

| model file | Rust source |
|------------|-------------|
| Preorder, Postorder, Inorder | `dfs_*_iterators/mod.rs` and the owned/borrow/mut copies of the context `advance` |
| Bfs, BfsCache, BfsCtx | `bfs_iterators/mod.rs`, `leaves_iterators/breadth_first`, `leaves_iterators/ancestors_breadth_first` |
| Leaves | `leaves_iterators/depth_first`, `leaves_iterators/ancestors_depth_first` |
| AtPath | the `at_path*` functions |
| Collection | `collection_iterators.rs` |
| Pipeline, PipelineApi, Chain | `tree_iterators/*`, entry points in `prelude.rs` |
| CollectionPipeline, CollectionApi | `tree_collection_iterators/*` |
| Edit | contexts whose children are replaced between two advances |
| Handles | the plain and context iterators once more, with the collections of children they own |
| HandlesMore | the same for the iterators with ancestors, over leaves, and over leaves with ancestors |
| CacheDrops | breadth-first ancestors and contexts once more, with a log of the values taken and dropped |
| Poll | the iterators over general nodes and the collections once more, over child iterators that are state machines |
| MutRef | `*_iter_mut` loops, with a memory of cells addressed by paths |
| MutPipe | closures of `map_mut`, `map_path_mut`, `fold_mut`, `fold_path_mut`, `prune_mut`, `prune_path_mut`; `cloned` |
| Exchange | `get_mut` of the mutably borrowed `attach_ancestors()`, `attach_ancestors().leaves()` and `attach_context()` iterators, of single trees and collections, used to move references out and put others in (C57); a value stands for the reference to it |
| Uninit | programs that write to what `get_mut` hands out, or put back a context seen before (C58) |
| PathBuf, PathBufChain | the allocations of the path that `map_path` points into, for trees and collections (C59); PathBufChain has other stages before `map_path` |
| LazyPipe | pipelines on general and binary trees once more, without the assumption that the tree is finite; loops are bounded by fuel (C60). `map_path` and pipelines on collections are left out |
| SliceEdit | `get_mut` of the owned `attach_ancestors()` and `attach_context()` iterators: the state after writing to the slice (`ancestors_mut`); loops that write |
| Fail | the iterators once more, over nodes whose split may panic, with the state left by the panic (C62); `Props/FailAfter` and `Props/FailMid` have what comes after the first panic |
| Shared | the plain iterators, depth-first ancestors, leaves, and the plain iterators of collections once more, over nodes whose code and whose loop body act on a common state (C81); loops that may not end carry fuel; `SharedCtx` does the same for the preorder iterators with context, general and binary by one definition whose child iterators give slots; `SharedPost` for those of postorder, with a parameter that tells owned from borrowed, `SharedIn` for those in order and for in-order ancestors, and `SharedWide` for breadth-first contexts and ancestors, whose ancestors the body only reads; `SharedLeaf` for the leaves with ancestors, depth and breadth first |
| Rounds, RoundsCtx | how often a call of `next` goes around its loops (C80): numbers only, read off the states of the other models |
| CollChain | chains of stages on collections |
| LazyColl | the plain and the context iterators of collections, over any state machine in place of the list of trees (C65) |
| AtPathMut | `at_path_mut` on `Tree` and `BinaryTree`; a mutable reference is what is behind it and a function from what is written to what its owner then holds (C66) |
| LazyCollPipe | the pipelines of collections over any state machine in place of the list of trees (C67) |
| CollEarly, MutCollEarly | pipelines of collections dropped after any number of calls (C69); the trees they leave behind when mutably borrowed |
| Advance | `collect_tree`, `fold_tree` and `fold_path` on pipelines that were advanced by hand (C70) |
| FailPipe | pipelines whose closures panic, with the panics caught (C71) |
| FailColl | the same for collections of general trees, with `trees()` and `fold_trees` (C72) |
| FailPath | positions in such pipelines, with `prune_path` stages and a client that looks at `current_path` and prunes (C73) |
| FailFold | `fold_trees` on collections whose own closure panics and is called again (C74) |
| FailPlace | `fold_path` on collections, and `trees`, `fold_trees`, `fold_path` on collections of binary trees, after caught panics (C75) |
| FailPostBin | postorder contexts of binary and of owned nodes, and breadth-first contexts of binary nodes, once more, over nodes whose split may panic (C62) |
| FailSource | traversals of collections whose own iterator, or whose nodes, panic (C76); `Props/FailSourceCtx` has the contexts of C62 in collections |
| MutColl | collections of mutably borrowed trees: the addresses start with the number of the tree (C68) |
| PipeMemory | the lengths of the vectors in the states of pipelines, and the states a client can reach (C63) |
| Drive | clients that call `next`, `current_path`, `prune_current_subtree` themselves |

## Notes on the model

* **Owned, borrowed, mutable.** In `Model/MutRef.lean` a mutable reference is the address (path) of its cell. The body
  of the loop may read and write the cell of its round (C43), or all cells of the slice (C44). It does not swap
  references between slots of a slice.
* **Contexts of borrowed post-order and in-order iterators** duplicate the child list with `core::ptr::read(&children)`.
  `Model/Postorder.lean` copies the list; `Model/Handles.lean` (C48) counts the owners of the collection.
* **`map_path`** hands the closure a slice obtained before the pipeline advances. After a reallocation its content is
  whatever the freed memory holds. The model passes an arbitrary oracle list in that case, so C29_false does not depend on it.
* **BFS contexts** use checked addition for path segments; the theorems assume `ArityLt` (fewer than 2^64 children),
  and `C14_bfs_context_overflow` shows that the bound is sharp.
* **`TreeNodeVecDeque::clone`** cannot be reached from the public interface and is not modelled.
* **Pipelines.** A stage is a record of `next`, `current_path`, `prune_current_subtree`. Depth counters of the prune
  stages are unbounded naturals. The closure of `fold` has a state of its own, separate from the stages' states.
  Closures that panic are modelled in `FailPipe`, `FailColl`, `FailPath`, `FailFold` and `FailPlace` only (C71 to C75); panics of the iterator of a collection in `FailSource` (C76). The binary owned `map_path_each` receives no path; the owned general
  `prune_depth_each<F>` has an unused type parameter.
* **Collections.** The iterator of trees is a finite list (fused), the index does not overflow, except in `LazyColl` (C65),
  which allows any iterator and counts modulo 2^64. The six collection
  ends (`trees`, `fold`, `fold_path` and their binary forms) share one skeleton of `next` (`CollEnd`).
* **C36.** Closures without common state compose; C36_stateful_differs shows that with a state shared between stages a
  chain differs from running the stages one after the other, since a chain interleaves the calls.
* **C40** measures sizes between calls. Inside a call one more entry may exist.

## Trusted base

* The Lean 4.33.0 kernel. The axioms used are at most `propext`, `Classical.choice`, `Quot.sound`; `AXIOMS.md` lists
  them for every theorem of `MANIFEST.json`.
* The reading of the Rust source expressed in the model definitions, including the pipeline models.
* Not modelled: memory safety of the `unsafe` blocks apart from C48, C49, C58 and C59, allocation, drop order, Rust aliasing rules apart from C57,
  the borrow checker (which rules out some interleavings), `usize` overflow of vector lengths,
  panics inside user closures and user traits (outside C62, which has panics of the function that splits a node into value and
  children, caught by the program, and C71 to C75, which have these and panics of the closures of `map_tree`, `prune`, `prune_path`, `fold_trees` and `fold_path`, C76, which has panics of the iterator of a collection, and C79, which has panics of `next` of child iterators), user trait implementations with infinitely many children outside C61, or with infinite trees outside C47, C60 and C61, or (outside C50 and C61) whose child
  iterators are not fused, laziness of user child iterators (side effects inside `Iterator::next` of a user type).

## Plan per property

| id | model | proof |
|----|-------|-------|
| C01 | `dfs_preorder_next!` stack of child lists | remaining-output function of the state; head/tail lemma; n-th call theorem |
| C02 | `dfs_postorder_next!` item + iterator stacks | same |
| C03 | `dfs_inorder_next!` right stack, item stack, `moved` | same |
| C04 | `bfs_next!` queue of child lists | queue's remaining output = level order of a forest |
| C05 | specs of C01-C04 | permutation lemmas on spec lists, transported by C01-C04; distinctness on position-labelled trees |
| C06-C08 | `*_ancestors_streaming_iterator_impl!` | remaining-output invariant incl. the current slice |
| C09 | `bfs_ancestors_streaming_iterator_impl!` with the `TreeNodeVecDeque` cache | zipper invariant relating cache + stack + queue to an abstract queue of (ancestors, pending children) |
| C10-C13 | `*_context_streaming_iterator_impl!`, per-ownership `advance` | as C06-C08 with path, children |
| C14 | `bfs_context_*` | as C09 |
| C15 | contexts + `at_path` | induction on spec lists |
| C16 | `at_path` | recursion on the path |
| C17, C20 | `dfs_postorder_leaves_next!`, `streaming_leaves!` from fresh state | remaining-output invariant |
| C18, C21 | same from interrupted states | expected false: witness by evaluation, partial theorem for the interruption points where it holds |
| C19, C22 | BFS leaves from interrupted states | invariant of C04/C09 transported |
| C23 | panic conditions of `attach_*` | invariant "root is None iff advanced" |
| C24 | states after exhaustion | n-th call theorems; BFS ancestors expected false |
| C25, C26 | `collection_iterators.rs` | concatenation lemma over single-tree machines |
| C27-C36 | `tree_iterators/*` combinators over an abstract "visit stream" machine | one refinement theorem: any pipeline denotes a tree transformer in visitor form |
| C37, C38 | `tree_collection_iterators/*` | same, per tree |
| C39 | preorder/BFS context with an edit function applied between advances | machine equals traversal of the edited unfolding |
| C40 | reachable states of the depth-first iterators and of `leaves()` | invariant: one entry per level of a chain |
| C41 | collection `attach_context` guard | reachable states |
| C42 | pipelines without removal | source and collected tree share positions |
| C43, C44 | loops over mutable references | k-th round touches the cell(s) of the k-th position; distinct positions, distinct cells |
| C45 | pipelines and iterators | both against the specification lists |
| C46 | hand-driven pipelines | the client is one more stage |
| C47 | preorder and BFS machines without finiteness, general and binary; in-order machines on nodes whose walks to the left end (`LeftNode`) | simulation of the tree cut at depth d (in-order: after d steps to the right), which agrees for d calls |
| C48 | machines with the child collections they own and a log of openings and drops | step-wise conservation: opened = dropped + live; erasing the log gives the machines of C01-C14; the log of the plain iterators is a prefix of the brackets of `Spec/Brackets` |
| C49 | breadth-first cache machines with a log of values taken and dropped | the cache operations move values; only spent frames are popped (zipper of C09); what is left in the cache is lost |
| C50 | the iterators over polled child iterators; the postorder and leaves loops have fuel | simulation: each iterator held by the machine yields the list held by the machine of C01-C22 before its first `None` |
| C51 | `PipelineApi` on mutable references, the memory being part of the closure's state | induction on the tree of addresses: distinct addresses, so what one subtree writes another does not read |
| C52 | `map` with a cloning closure | C28 |
| C53 | the machine of C04 | invariant between calls: the front iterator belongs to `y`, behind it the nodes after `y` on its level and those returned on the next |
| C54 | the machines of C01-C04 | peaks from C40 and C53; chains as counterexamples |
| C55 | `SliceEdit` on the machines of C06-C14 | the machines are natural in the values and hold each node at most once, so a machine on addresses and a memory follow the machine on values; then C06-C14 on addresses. For breadth-first contexts that each value is held at most once comes from the accounting of C49 |
| C56 | `Edit` with the mutably borrowed post-order and in-order contexts | what `next` returns does not depend on the field `children` |
| C57 | `Exchange` on the machines of C06-C14 | a multiset of references: no step and no exchange makes a reference occur more often in state and pocket together; for the breadth-first cache without any invariant, as the client may have changed the children. False for the postorder and in-order contexts, by three clients of two or three steps. Lens laws of what `get_mut` lends: what is put in is read back, putting back what was read changes nothing, the last put wins |
| C58 | `Uninit` on the breadth-first machines of C09, C14 | `next` is never the error `uninit`; invariant: all entries below the traversal stack hold values and there are more items than entries of the stack; refuted for contexts by a program run |
| C59 | `PathBuf` | allocations are numbered; every call of the closure records the allocation of its slice and the one in use; the calls that get a freed slice are listed from the depths of the nodes and the growth of vectors, for every tree and collection; after other stages, an invariant of the chain: its vector is unallocated or has its first capacity, which is never exceeded; after `prune` the list once more, from the depths of the nodes looked at |
| C60 | `LazyPipe` with `Chain` | the pipeline on the node and the finite pipeline of C36 on the tree cut at depth d go in step, stage by stage; from a `prune_depth(d)` on, no state needs anything below depth d |
| C61 | `Poll` with `Spec/Peek` | the iterator over endless child iterators and the one over a finite piece of the tree go in step, and every call uses up one step of the piece; so C01, C04, C06, C09, C10, C14 on the piece give the answer |
| C62 | `Fail` with `Spec/Fail` | the tree without the subtrees where the split panics; the machine goes in step with the list of remaining nodes, where a panic takes one call; refuted by `decide` for the iterators that have already changed their path or ancestors when the panic comes; for these `Spec/FailAfter` threads the ancestors, one of which every call takes away, through the tree; `FailPostBin` does the same for the iterators with a macro of their own |
| C63 | `PipeMemory` on `Pipeline`, `Chain`, `CollectionPipeline` | `next` and `prune_current_subtree` keep: every entry of the traversal stack holds nodes of a lower level (as in C40), and the vectors of a stage have the length of the path of the source's last node; stage by stage along the chain |
| C64 | `CollChain` on `CollectionPipeline` | stage by stage, a chain on a collection visits the same nodes as its source and decides by a step function on paths with the number of the tree in front; that step function restricted to one tree is the step of the chain on that tree; two passes over the collection, the first without a state, are one |
| C65 | `LazyColl` | by induction on the number of times the source was asked: a block of calls gives the listing of one tree, or one `None`, and leaves the inner iterator finished |
| C66 | `AtPathMut` | the laws of reading and exchanging one child (proved for both kinds of trees) give those of reading and exchanging a subtree by induction on the path; the two-pass loop goes in step with the loop of C43 |
| C67 | `LazyCollPipe` | the pipeline on the source goes in step with the pipeline on the list of its first trees until that one ends, and an ended one stays ended; every stage and every end keeps this; then C64 |
| C68 | `MutColl` | a collection is memory whose addresses start with the number of the tree; loops by C25 and the loop lemma of C43, `map` and `fold` by C37/C38 and the per-tree lemmas of C51, pruning by relabelling nodes with positions |
| C69 | `CollEarly` | the items of the first trees lead the pipeline to a state whose next call goes on as from the trees after them; the stack machine behind the six ends is completed alike by the end of the pipeline and by a further root; so `k` calls end after the first item of what is left, with the fold state of `k` trees |
| C70 | `Advance` with `Spec/Advance`, `Spec/AdvancePath` | after k calls the pipeline emits the rest of its items; the stack of `collect_tree`, cut at a depth, is one tree whose last nodes are the stack, so one round of the loop is one `attach`; the stack of `fold_tree` is the fold of that stack; in binary trees a left child follows its parent directly, so what comes later goes to a right slot; for `fold_path` every value is labelled with what the closure will be told, and the stack of trees of labelled values tells the fold state; the segments are one longer than they should be until a value is no deeper than the number of values before it; refuted by `decide` where depths are taken for paths from the root |
| C71 | `FailPipe` with `Spec/FailPipe` | a reply is a value or a caught panic; every stage walks the pending trees of the source node by node as the chain's step tells, dropping a node, or answering and going on below it or not; the walk gives the list of replies; refuted by `decide` for depth limits behind a stage that panics |
| C72 | `FailColl` with `Spec/FailColl` | the source walks the pending trees of one tree after another; an end holds a stack that is told by the values it has taken, so the answers are those of the replies cut into batches at roots and panics; refuted by `decide` for trees before and after a panic |
| C73 | `FailPath` with `Spec/FailPath` | the walk of C71 over trees whose nodes carry their positions, with a relation between node and `current_path` after each reply (exact, or only the length behind a pruning stage of a general tree); the client is one more stage; refuted by `decide` for a stage that keeps its own path |
| C74 | `FailFold` with `Spec/FailFold` | the stacks of the end are those of C72 with the complete trees below each open node folded; the closure is called for exactly the nodes that a value of depth d shows to be complete; refuted by `decide` |
| C75 | `FailPlace` with `Spec/FailPlace` | the binary ends and `fold_path` are simulated by one abstract fold over values tagged with the number of the child, which C74's argument covers; slots are the last results with number 0 and 1; refuted by `decide` |
| C76 | `FailSource` with `Spec/FailSource` | the state is told by what the iterator of the current tree has left and by the items the collection has left; a finished iterator kept after a panic has nothing left; refuted by `decide` for breadth-first contexts; where C62 fails, the exact answers of C62 for trees that start at the path `[i]` |
| C77 | `Handles`, `HandlesMore` with `Spec/Tour` | what is still to happen is read off the stack or queue of collections: the rest of a walk around the tree, or along its levels; each call takes it up to the next opening or release; the number of collections held is the nesting of the walk |
| C78 | `Fail` with `Spec/FailGet` | contexts: the simulation of C62 by the tree without the subtrees that panic, and what the failing call has written by then; slices: `next` followed by `get` is a machine of its own, which goes through the list of what is to be shown |
| C79 | `Flaky` with `Spec/Flaky` | the calls of `next` are seen as nodes, those that panic as nodes that panic (C62): the iterators without paths go through the same states; breadth-first leaves as if the nodes whose first call panics were such nodes; contexts follow up to the first panic |
| C80 | `Rounds`, `RoundsCtx` with `Spec/Rounds` | each call is paid out of a stock, twice the nodes that wait in the stack or queue plus its iterators; the stock at the start is the bound.  Breadth first with ancestors: a round pushes or pops at most one item, so rounds bound the distance between slices (C09); the documentation of `attach_ancestors` says that nodes are visited more than once, so this is no disagreement |
| C81 | `Shared` with `Spec/Shared` | the specification is a recursive visitor, given as a big-step relation, which has no derivation when the visitor does not end; the proof goes over the same visitor with its calls on an explicit stack. Equivalence, so both the end and the endlessness of the loop are covered. `Spec/SharedPlain` takes the nodes of the other models as nodes that leave the state alone; on them loop and visitor go through the lists of C01-C14, C17, C19, C20, C22 and C25, which ties this model and its specification to the others |

## Disagreements between code and documentation (found by reading)

1. `map_path` (`tree_iterators/map_path.rs` 39-45, `tree_collection_iterators/map_path.rs` 39-43) takes the
   `current_path()` slice *before* calling `inner.next()`, via a raw-pointer lifetime extension, so the
   closure receives a slice with the previous node's path length (and a dangling one if the
   path vector reallocates).  C29 is false.  The slice is of freed memory as well on every collection of at least two
   trees, since the path of a tree is dropped with its iterator, and on trees with a node, other than the last in
   preorder, at depth four or more (with the standard library's growth of vectors).  C59 is false.  After `prune` on a
   general tree the slice is of the vector of `prune`; it is of freed memory if a node at depth more than four is looked at and that
   node or a later one is kept.
2. `Prune`/`PrunePath` for general trees keep their own `current_path` (`tree_iterators/prune.rs` 44-86) and do
   not advance the last segment when the next node has the same depth as the previous one.  C32 is false; the
   depth (length) is right.
3. Depth-first `leaves()` in mid-traversal drops leaves that sit directly in an interrupted iterator
   (`leaves_iterators/depth_first/mod.rs` 5-47).  C18 is false.
4. Depth-first `attach_ancestors().leaves()` in mid-traversal reports wrong ancestors
   (`leaves_iterators/ancestors_depth_first/mod.rs`).  C21 is false.  In preorder the first answer is wrong at every
   point but the start; in postorder the first answer is right and later ones may be wrong.
5. `bfs().attach_ancestors()` panics when advanced again after it returned None
   (`bfs_iterators/mod.rs` 272-330 indexes an empty queue).  C24 is false for that iterator only.

6. The contexts of the borrowed and mutably borrowed general postorder iterators (`dfs_postorder_iterators/borrow.rs` 143-145,
   170-173, `mut_borrow.rs` 150-153, 178-181) duplicate the children with `core::ptr::read` and keep both copies. The comment there
   assumes that the copy on `into_iterator_stack` outlives the other. Both are dropped, the one on `traversal_stack` first. This is
   harmless for children without drop code (slice iterators, as for `Tree`). A node type whose `BorrowedChildren` owns memory, such
   as `Vec<&Node>`, gets it freed twice, and `context.children()` shows freed memory. C48 is false for these contexts.
7. The breadth-first `attach_ancestors()` and `attach_context()` iterators keep the values of finished nodes in
   `TreeNodeVecDeque`s, whose field `value` is a `MaybeUninit` (`bfs_iterators/mod.rs` 433-438). Nothing implements `Drop` for
   them, so the values that are in the cache when an iterator is dropped before its end are never dropped. With owned
   values this is a memory leak. C49 is false for these iterators.
8. `bfs().attach_ancestors().leaves()` on a root without children asks the root's child iterator again after it has answered
   `None` (`leaves_iterators/ancestors_breadth_first/mod.rs` 95-147): the first `advance` returns at the root without popping the
   queue. A child iterator that is not fused can produce nodes that no other traversal sees. C50 is false for this iterator.
9. The README (61-63) calls the `dfs_preorder()` APIs "the most memory efficient". Exhausted child iterators stay on the stack until
   the iterator backtracks, so on a chain of n nodes a preorder iterator comes to hold n child iterators, `bfs()` at most two and
   (on right children) `dfs_inorder()` one slot. C54 is false as a statement about all trees.
10. `doc_files/tree_context_children.md` says that a child added to the children of a context will also be visited, and that removing
   one may cause it to never be visited. That holds for preorder and breadth first (C39). The mutably borrowed post-order and
   in-order contexts show a copy that the traversal does not look at again (C56).
11. The README (95) says the aliasing of mutable references in the postorder and in-order contexts has been fixed. That may be so for
   clients that drop what they were shown before they call `next`. But `children_mut` and `ancestors_mut` let safe code move the references out (their lifetime is that of the tree), and `children` of these contexts leads to nodes that
   were shown before (postorder, left children in order) or are shown later (right children in order): two live `&mut` to one value
   (C57). `MutBorrowedTreeNode` (general nodes) has the same with `core::ptr::read`.
12. `advance_dfs` of the breadth-first context iterators (`bfs_iterators/mod.rs` 155-170) gives the value back to the top of the
   traversal stack only if `current_context.ancestors` has more than one element, and moves that entry to its parent in any case. A
   program can shorten `ancestors` through `get_mut`: `TreeContext` is `Clone`, so the context of the root can be kept and put back
   later (contexts that are not `Clone` can be swapped between two iterators). Then an entry without a value gets into the cache,
   and `assume_init` (131-134) reads it. This is undefined behaviour from safe code. C58 is false for these iterators.
13. The README (95) also says that all code outside the traits for mutable borrows is written in safe Rust. `map_path` uses `unsafe` on
   all trees (`tree_iterators/map_path.rs`, `tree_collection_iterators/map_path.rs`; C29 and C59 are false because of it), and so does
   the cache of every breadth-first iterator with ancestors or contexts, owned and borrowed (`bfs_iterators/mod.rs`; C58 is false
   because of it).

14. A program may catch a panic of the user's `get_value_and_children` and go on with the iterator. The plain iterators, breadth-first
   and preorder `attach_ancestors()`, the breadth-first leaves and everything in order then skip the subtree and go on correctly. The postorder
   `attach_ancestors()` and `attach_context()`, the preorder `attach_context()` and the depth-first `attach_ancestors().leaves()`
   pop an ancestor for an item that was never pushed: later answers lack an ancestor and nodes are left out. The breadth-first
   `attach_context()` has taken `children` before the panic and panics at `unwrap` from then on. C62 is false for these.
   `Spec/FailAfter` says exactly what they answer instead: the order, the paths and the children stay right, the ancestors do not; the
   slices may answer again after a `None`, the contexts stop too early.
15. Pipelines are public iterators, but `collect_tree`, `fold_tree` and `fold_path` (`tree_iterators/mod.rs` 293-327, 379-407, 564-616,
   670-716) take the first item they get for a root at depth zero. After a call of `next()` by hand siblings of that item become
   its children; in binary trees two nodes may claim one slot, and the first one is dropped with its subtree. `fold_tree` of binary
   trees keeps its own path, in which the first item has a segment, and then gives children to other slots than `collect_tree`; `fold_path`
   tells its closure positions made of these segments. C70
   is false.
16. `prune_depth` (`tree_iterators/prune_depth.rs` 21-31) prunes the current node only after `inner.next()` has returned. If a closure of
    a stage before it panics at a node at the depth limit and the program catches the panic and goes on, the subtree is still there
    and nodes below the limit come out: `.map_tree(f).prune_depth(1)` on 0(1(3 4) 2(5)) with `f` panicking at 1 answers 0, panics,
    then 3, 4 and 2. C71 states what each call does exactly, and that the limit holds if the stages before do not panic.
17. `Trees::next` (`tree_collection_iterators/trees.rs` 37-76) and `Fold::next` (`fold.rs` 48-82) build a tree on stacks local to the
    call. If a closure of the pipeline panics and the program catches the panic and goes on, what was built is lost and the rest of
    the tree comes out as if it were a tree of the collection; if the panic falls on the root of the next tree, the tree before it
    is lost although it was complete. `.map_trees(f).trees()` on 0(1(3 4) 2(5)), 7(8), 9 with `f` panicking at 1 panics, then answers
    3(4 2(5)), 7(8) and 9; with `f` panicking at 7 the first tree does not come out at all. C72 states what each call does exactly.
18. `Prune::next` and `PrunePath::next` (`tree_iterators/prune.rs` 44-86, `prune_path.rs` 44-86, and those of collections) bring their own
    `current_path` up to date only after `inner.next()` has returned. If a closure of a stage before panics and the program catches
    the panic, `current_path()` still tells the position of the node before: `.map_tree(f).prune(|_| false)` on 0(1(2)) with `f`
    panicking at 1 reports `[]` after the panic, not `[0]`. (C32 has the paths that are wrong without a panic; on this tree they are right.)
    `prune_current_subtree()` still applies to the node of the panic. The binary stages have no path of their own and are right.
19. `Fold::next` of collections (`tree_collection_iterators/fold.rs` 48-70) takes the next value out of the pipeline and only then folds
    what this value shows to be complete. If the closure panics there and the program catches the panic, the value is lost with the
    stacks, and it may be the root of the next tree: with trees 7(8) and 9 and a closure that panics at 7 the tree 9 never comes out.
    What is left of the tree of the panic comes out as the fold of a tree of its own, as in 17.
20. After a caught panic in a collection of binary trees the values that are left are put together by their depths, but the slots come
    from the numbers in the real tree (`tree_collection_iterators/trees.rs`, `fold.rs`, `fold_path.rs`). Two values may meet in one
    slot, and the later one replaces the earlier with all that is below it: with the tree 0(1(2, 3), 4) and a closure of `map_trees`
    that panics at 1, `trees()` gives 2(–, 4), and 3 is lost. In the same way the closure of `fold_path` is told wrong positions: with
    0(1(3, 4), 2(5)) and a panic at 1 it is told that 3 is at `[0]`.
21. The breadth-first `attach_context()` of a collection keeps the iterator of the tree in which `get_value_and_children` panicked
    (`collection_iterators.rs` 93-100), and this iterator panics from then on (14). So the trees after it are never reached, whatever
    the program does: with trees 0(9) and 1 and a panic at 9, the program gets 0, the panic, and then panics at `unwrap`. Panics of
    the collection's own iterator, and panics at roots, do no harm. C76 is false for these contexts.
22. `children()` (`tree_context.rs` 54-64) says the children "should always be populated unless the iterator is in the middle of its .next()
    method". If `get_value_and_children` panics and the program catches the panic, `get()` shows that middle: the path leads to the node
    that panicked, the ancestors end with its parent, and the children are `None` (`children()` panics) or, in postorder, those of the
    node answered before. In order the path and the ancestors are those of the parent, but the children those of the node answered
    before. C78 is false for contexts; the slices of `attach_ancestors()` are those of the parent.
23. If the `next` of a child iterator panics and the program catches the panic, `bfs().leaves()` (`leaves_iterators/breadth_first/mod.rs`
    5-61) may lose nodes: it calls `peek` on the child iterator of a node, and this makes the first call of `next`, before it stores
    the iterator. If that call panics the iterator is dropped, and all children of the node are never seen; the other iterators would ask
    again. With `attach_ancestors()` the value is stored before the panic and the iterator is not, so that later leaves are answered
    with the wrong ancestors: with 0(1(panic, 3), 2(6), 7) the leaf 6 is answered as `[0, 1, 6]`; and a root whose child iterator panics
    at its only call is answered as a leaf. `dfs_preorder().attach_context()` panics by itself (`expect` in `dfs_preorder_iterators/mod.rs`
    197) if the first call of the root's child iterator panics and the second gives a child. C79 is false for these, and for the
    slices and contexts that C62 names, for the same reasons as there.

For each of them but 10 and 13 `MANIFEST.json` lists a theorem ending in `_false` with a concrete witness and `_partial` theorems that
say what holds instead. For C18 and C32 the partial theorems describe the behaviour exactly. For C21 they say which leaf
values end the reported slices, up to permutation, and what the first answer is in preorder and postorder, and leave the rest of the slices open. For C24 all other iterators stay finished. For C29 shape, order and number of calls
are right.
