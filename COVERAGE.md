# Which definition stands for which function

Generated from the source comments of the modules in `lean/Verif/Model`. A function is listed with the modules
whose definitions cite lines of it. Functions without a citation of their own are listed with the reason.

Files are relative to `tree_iterators_rs/src`. Functions inside macros are listed once, where the macro is defined.
582 functions, 272 with a citation of their own.


## `bfs_iterators/borrow.rs`

| lines | function | model modules |
|---|---|---|
| 33-35 | `attach_context` | — moves the fields of one iterator into another, as in the owned copy of the file |
| 56-61 | `new` | — constructor: the initial state in the model of the iterator |
| 64-70 | `leaves` | — moves the fields of one iterator into another, as in the owned copy of the file |
| 73-78 | `attach_context` | — moves the fields of one iterator into another, as in the owned copy of the file |
| 81-86 | `attach_ancestors` | — moves the fields of one iterator into another, as in the owned copy of the file |
| 113-133 | `new` | — constructor: the initial state in the model of the iterator |
| 162-178 | `new` | — constructor: the initial state in the model of the iterator |
| 181-193 | `leaves` | — moves the fields of one iterator into another, as in the owned copy of the file |
| 219-223 | `attach_context` | — moves the fields of one iterator into another, as in the owned copy of the file |
| 244-249 | `new` | — constructor: the initial state in the model of the iterator |
| 252-258 | `leaves` | — moves the fields of one iterator into another, as in the owned copy of the file |
| 261-266 | `attach_context` | — moves the fields of one iterator into another, as in the owned copy of the file |
| 269-274 | `attach_ancestors` | — moves the fields of one iterator into another, as in the owned copy of the file |
| 300-316 | `new` | — constructor: the initial state in the model of the iterator |
| 319-321 | `leaves` | — moves the fields of one iterator into another, as in the owned copy of the file |
| 351-371 | `new` | — constructor: the initial state in the model of the iterator |

## `bfs_iterators/mod.rs`

| lines | function | model modules |
|---|---|---|
| 7-24 | `next` | Bfs, Fail, Flaky, Handles, Poll, Rounds, Shared |
| 30-88 | `advance` | BfsCtx, CacheDrops, Exchange, Fail, Flaky, Handles, Poll, RoundsCtx, SharedWide |
| 90-96 | `get` | BfsCtx, Poll |
| 102-108 | `get_mut` | Edit, Exchange, SharedWide, SliceEdit, Uninit |
| 114-174 | `advance_dfs` | BfsCtx, RoundsCtx, Uninit |
| 176-192 | `pop_from_item_stack` | BfsCtx |
| 198-260 | `advance` | BfsCtx, CacheDrops, Exchange, FailPostBin, RoundsCtx, SharedWide |
| 262-268 | `get` | Exchange |
| 274-320 | `advance` | BfsCache, CacheDrops, Exchange, Fail, Flaky, HandlesMore, Poll, Rounds, SharedWide |
| 322-328 | `get` | BfsCache, Flaky, Poll, SharedWide |
| 334-340 | `get_mut` | Exchange, SliceEdit, Uninit |
| 346-399 | `advance_dfs` | BfsCache, Rounds, Uninit |
| 401-420 | `pop_from_item_stack` | BfsCache |
| 444-450 | `clone` | — cannot be reached (`clone`) / the empty cache of the initial state (`default`) |
| 454-460 | `default` | — cannot be reached (`clone`) / the empty cache of the initial state (`default`) |

## `bfs_iterators/mut_borrow.rs`

| lines | function | model modules |
|---|---|---|
| 35-37 | `attach_context` | — moves the fields of one iterator into another, as in the owned copy of the file |
| 58-63 | `new` | — constructor: the initial state in the model of the iterator |
| 66-72 | `leaves` | — moves the fields of one iterator into another, as in the owned copy of the file |
| 75-80 | `attach_context` | — moves the fields of one iterator into another, as in the owned copy of the file |
| 83-88 | `attach_ancestors` | — moves the fields of one iterator into another, as in the owned copy of the file |
| 115-134 | `new` | — constructor: the initial state in the model of the iterator |
| 170-186 | `new` | — constructor: the initial state in the model of the iterator |
| 189-201 | `leaves` | — moves the fields of one iterator into another, as in the owned copy of the file |
| 234-238 | `attach_context` | — moves the fields of one iterator into another, as in the owned copy of the file |
| 259-264 | `new` | — constructor: the initial state in the model of the iterator |
| 267-273 | `leaves` | — moves the fields of one iterator into another, as in the owned copy of the file |
| 276-281 | `attach_context` | — moves the fields of one iterator into another, as in the owned copy of the file |
| 284-289 | `attach_ancestors` | — moves the fields of one iterator into another, as in the owned copy of the file |
| 315-331 | `new` | — constructor: the initial state in the model of the iterator |
| 334-336 | `leaves` | — moves the fields of one iterator into another, as in the owned copy of the file |
| 373-393 | `new` | — constructor: the initial state in the model of the iterator |

## `bfs_iterators/owned.rs`

| lines | function | model modules |
|---|---|---|
| 34-36 | `attach_context` | — moves the fields of one iterator into another, as in the owned copy of the file |
| 57-62 | `new` | Bfs, Flaky, Shared |
| 65-73 | `leaves` | Bfs, Flaky, Poll, Shared |
| 76-81 | `attach_context` | BfsCtx, Flaky |
| 84-89 | `attach_ancestors` | BfsCache, Flaky |
| 116-136 | `new` | BfsCtx, CacheDrops, Flaky, Handles, Poll, SharedWide |
| 172-188 | `new` | BfsCache, CacheDrops, Fail, Flaky, HandlesMore, Poll, SharedWide |
| 191-203 | `leaves` | BfsCache, HandlesMore, Poll, SharedLeaf |
| 236-238 | `attach_context` | — moves the fields of one iterator into another, as in the owned copy of the file |
| 259-264 | `new` | — constructor: the initial state in the model of the iterator |
| 267-273 | `leaves` | — moves the fields of one iterator into another, as in the owned copy of the file |
| 276-281 | `attach_context` | BfsCtx |
| 284-289 | `attach_ancestors` | — moves the fields of one iterator into another, as in the owned copy of the file |
| 315-331 | `new` | — constructor: the initial state in the model of the iterator |
| 334-336 | `leaves` | — moves the fields of one iterator into another, as in the owned copy of the file |
| 373-393 | `new` | BfsCtx, CacheDrops, SharedWide |

## `collection_iterators.rs`

| lines | function | model modules |
|---|---|---|
| 17-22 | `new` | Collection, LazyColl |
| 32-48 | `next` | Collection, FailSource, LazyColl, Poll, RoundsCtx, Shared |
| 70-80 | `new` | Collection, LazyColl, PollColl |
| 93-122 | `advance` | Collection, FailSource, LazyColl, PollColl, RoundsCtx |
| 124-128 | `get` | Collection, FailSource, LazyColl, PollColl |
| 136-140 | `get_mut` | — identical, up to the types, to the copy of the macro for owned general trees (1-143): Collection, LazyColl |
| 162-172 | `new` | — identical, up to the types, to the copy of the macro for owned general trees (1-143): Collection, LazyColl |
| 185-214 | `advance` | — identical, up to the types, to the copy of the macro for owned general trees (1-143): Collection, LazyColl |
| 216-220 | `get` | — identical, up to the types, to the copy of the macro for owned general trees (1-143): Collection, LazyColl |
| 228-232 | `get_mut` | — identical, up to the types, to the copy of the macro for owned general trees (1-143): Collection, LazyColl |
| 254-264 | `new` | — identical, up to the types, to the copy of the macro for owned general trees (1-143): Collection, LazyColl |
| 277-305 | `advance` | — identical, up to the types, to the copy of the macro for owned general trees (1-143): Collection, LazyColl |
| 307-311 | `get` | — identical, up to the types, to the copy of the macro for owned general trees (1-143): Collection, LazyColl |
| 319-323 | `get_mut` | — identical, up to the types, to the copy of the macro for owned general trees (1-143): Collection, LazyColl |
| 345-355 | `new` | — identical, up to the types, to the copy of the macro for owned general trees (1-143): Collection, LazyColl |
| 365-393 | `advance` | — identical, up to the types, to the copy of the macro for owned general trees (1-143): Collection, LazyColl |
| 395-399 | `get` | — identical, up to the types, to the copy of the macro for owned general trees (1-143): Collection, LazyColl |
| 407-411 | `get_mut` | — identical, up to the types, to the copy of the macro for owned general trees (1-143): Collection, LazyColl |
| 432-437 | `new` | — identical, up to the types, to the copy of the macro for owned general trees (1-143): Collection, LazyColl |
| 447-463 | `next` | — identical, up to the types, to the copy of the macro for owned general trees (1-143): Collection, LazyColl |
| 485-495 | `new` | — identical, up to the types, to the copy of the macro for owned general trees (1-143): Collection, LazyColl |
| 508-537 | `advance` | — identical, up to the types, to the copy of the macro for owned general trees (1-143): Collection, LazyColl |
| 539-543 | `get` | — identical, up to the types, to the copy of the macro for owned general trees (1-143): Collection, LazyColl |
| 551-555 | `get_mut` | Exchange |
| 577-587 | `new` | — identical, up to the types, to the copy of the macro for owned general trees (1-143): Collection, LazyColl |
| 600-629 | `advance` | — identical, up to the types, to the copy of the macro for owned general trees (1-143): Collection, LazyColl |
| 631-635 | `get` | — identical, up to the types, to the copy of the macro for owned general trees (1-143): Collection, LazyColl |
| 656-661 | `new` | — identical, up to the types, to the copy of the macro for owned general trees (1-143): Collection, LazyColl |
| 671-687 | `next` | — identical, up to the types, to the copy of the macro for owned general trees (1-143): Collection, LazyColl |
| 709-719 | `new` | — identical, up to the types, to the copy of the macro for owned general trees (1-143): Collection, LazyColl |
| 732-761 | `advance` | — identical, up to the types, to the copy of the macro for owned general trees (1-143): Collection, LazyColl |
| 763-767 | `get` | — identical, up to the types, to the copy of the macro for owned general trees (1-143): Collection, LazyColl |
| 789-799 | `new` | — identical, up to the types, to the copy of the macro for owned general trees (1-143): Collection, LazyColl |
| 812-841 | `advance` | — identical, up to the types, to the copy of the macro for owned general trees (1-143): Collection, LazyColl |
| 843-847 | `get` | — identical, up to the types, to the copy of the macro for owned general trees (1-143): Collection, LazyColl |
| 856-860 | `get_mut` | Exchange |

## `dfs_inorder_iterators/borrow.rs`

| lines | function | model modules |
|---|---|---|
| 28-32 | `attach_context` | — moves the fields of one iterator into another, as in the owned copy of the file |
| 54-63 | `new` | — constructor: the initial state in the model of the iterator |
| 66-90 | `leaves` | — moves the fields of one iterator into another, as in the owned copy of the file |
| 93-99 | `attach_context` | — moves the fields of one iterator into another, as in the owned copy of the file |
| 102-108 | `attach_ancestors` | — moves the fields of one iterator into another, as in the owned copy of the file |
| 133-142 | `new` | — constructor: the initial state in the model of the iterator |
| 145-169 | `leaves` | — moves the fields of one iterator into another, as in the owned copy of the file |
| 194-213 | `new` | Inorder, SharedIn |
| 222-280 | `advance` | Fail, Inorder, RoundsCtx, SharedIn |
| 282-288 | `get` | Inorder |

## `dfs_inorder_iterators/mod.rs`

| lines | function | model modules |
|---|---|---|
| 7-33 | `next` | Fail, Inorder, Rounds, Shared |
| 39-77 | `advance` | Exchange, Fail, Inorder, Rounds, SharedIn |
| 79-85 | `get` | Inorder |
| 91-97 | `get_mut` | Exchange, SharedIn, SliceEdit |
| 103-109 | `get_mut` | Edit, Exchange, SharedIn, SliceEdit |

## `dfs_inorder_iterators/mut_borrow.rs`

| lines | function | model modules |
|---|---|---|
| 31-35 | `attach_context` | — moves the fields of one iterator into another, as in the owned copy of the file |
| 57-66 | `new` | — constructor: the initial state in the model of the iterator |
| 69-93 | `leaves` | — moves the fields of one iterator into another, as in the owned copy of the file |
| 96-102 | `attach_context` | — moves the fields of one iterator into another, as in the owned copy of the file |
| 105-111 | `attach_ancestors` | — moves the fields of one iterator into another, as in the owned copy of the file |
| 136-145 | `new` | — constructor: the initial state in the model of the iterator |
| 148-173 | `leaves` | — moves the fields of one iterator into another, as in the owned copy of the file |
| 206-225 | `new` | SharedIn |
| 234-299 | `advance` | Exchange, Fail, Inorder, SharedIn |
| 301-307 | `get` | Exchange |

## `dfs_inorder_iterators/owned.rs`

| lines | function | model modules |
|---|---|---|
| 30-32 | `attach_context` | — moves the fields of one iterator into another, as in the owned copy of the file |
| 54-63 | `new` | Inorder |
| 66-90 | `leaves` | Leaves |
| 93-99 | `attach_context` | Inorder |
| 102-108 | `attach_ancestors` | Inorder |
| 133-142 | `new` | Inorder |
| 145-169 | `leaves` | Leaves |
| 201-216 | `new` | Inorder, SharedIn |
| 225-275 | `advance` | Fail, Inorder, RoundsCtx, SharedIn |
| 277-283 | `get` | Inorder |

## `dfs_postorder_iterators/borrow.rs`

| lines | function | model modules |
|---|---|---|
| 30-34 | `attach_context` | — moves the fields of one iterator into another, as in the owned copy of the file |
| 56-62 | `new` | — constructor: the initial state in the model of the iterator |
| 65-74 | `leaves` | — moves the fields of one iterator into another, as in the owned copy of the file |
| 77-84 | `attach_context` | — moves the fields of one iterator into another, as in the owned copy of the file |
| 87-94 | `attach_ancestors` | — moves the fields of one iterator into another, as in the owned copy of the file |
| 119-130 | `new` | Flaky, Postorder, SharedPost |
| 138-190 | `advance` | Fail, Flaky, Handles, Poll, Postorder, Rounds, SharedPost |
| 192-198 | `get` | Flaky, Poll, Postorder |
| 214-220 | `new` | — constructor: the initial state in the model of the iterator |
| 223-236 | `leaves` | — moves the fields of one iterator into another, as in the owned copy of the file |
| 259-263 | `attach_context` | — moves the fields of one iterator into another, as in the owned copy of the file |
| 285-291 | `new` | — constructor: the initial state in the model of the iterator |
| 294-301 | `leaves` | — moves the fields of one iterator into another, as in the owned copy of the file |
| 304-311 | `attach_context` | — moves the fields of one iterator into another, as in the owned copy of the file |
| 314-321 | `attach_ancestors` | — moves the fields of one iterator into another, as in the owned copy of the file |
| 345-351 | `new` | — constructor: the initial state in the model of the iterator |
| 354-364 | `leaves` | — moves the fields of one iterator into another, as in the owned copy of the file |
| 389-403 | `new` | Postorder, SharedPost |
| 411-465 | `advance` | FailPostBin, Postorder, RoundsCtx, SharedPost |
| 467-473 | `get` | Postorder |

## `dfs_postorder_iterators/mod.rs`

| lines | function | model modules |
|---|---|---|
| 7-31 | `next` | Fail, Flaky, Handles, Poll, Postorder, Rounds, Shared |
| 37-43 | `get_mut` | Edit, Exchange, SliceEdit |
| 49-70 | `advance` | Exchange, Fail, Flaky, HandlesMore, Poll, Postorder, Rounds, Shared |
| 72-78 | `get` | Exchange, Flaky, Poll, Postorder, Shared |
| 84-90 | `get_mut` | Exchange, SliceEdit |

## `dfs_postorder_iterators/mut_borrow.rs`

| lines | function | model modules |
|---|---|---|
| 33-37 | `attach_context` | — moves the fields of one iterator into another, as in the owned copy of the file |
| 59-65 | `new` | — constructor: the initial state in the model of the iterator |
| 68-78 | `leaves` | — moves the fields of one iterator into another, as in the owned copy of the file |
| 81-88 | `attach_context` | — moves the fields of one iterator into another, as in the owned copy of the file |
| 91-98 | `attach_ancestors` | — moves the fields of one iterator into another, as in the owned copy of the file |
| 123-137 | `new` | Flaky, SharedPost |
| 145-198 | `advance` | Exchange, Fail, Flaky, Handles, Postorder, SharedPost |
| 200-206 | `get` | Exchange |
| 229-235 | `new` | — constructor: the initial state in the model of the iterator |
| 238-251 | `leaves` | — moves the fields of one iterator into another, as in the owned copy of the file |
| 281-285 | `attach_context` | — moves the fields of one iterator into another, as in the owned copy of the file |
| 307-313 | `new` | — constructor: the initial state in the model of the iterator |
| 316-323 | `leaves` | — moves the fields of one iterator into another, as in the owned copy of the file |
| 326-333 | `attach_context` | — moves the fields of one iterator into another, as in the owned copy of the file |
| 336-343 | `attach_ancestors` | — moves the fields of one iterator into another, as in the owned copy of the file |
| 367-373 | `new` | — constructor: the initial state in the model of the iterator |
| 376-389 | `leaves` | — moves the fields of one iterator into another, as in the owned copy of the file |
| 420-434 | `new` | SharedPost |
| 442-506 | `advance` | Exchange, FailPostBin, Postorder, SharedPost |
| 508-514 | `get` | Exchange |
| 521-527 | `get_mut` | Edit |

## `dfs_postorder_iterators/owned.rs`

| lines | function | model modules |
|---|---|---|
| 33-35 | `attach_context` | — moves the fields of one iterator into another, as in the owned copy of the file |
| 57-63 | `new` | Flaky, Postorder, Shared |
| 66-73 | `leaves` | Flaky, Leaves, Poll |
| 76-83 | `attach_context` | Postorder |
| 86-93 | `attach_ancestors` | Flaky, Postorder |
| 117-127 | `new` | Postorder, SharedPost |
| 135-171 | `advance` | FailPostBin, Handles, Poll, Postorder, Rounds, SharedPost |
| 173-179 | `get` | Poll, Postorder |
| 202-208 | `new` | Flaky, Postorder, Shared |
| 211-223 | `leaves` | Leaves, Poll |
| 253-255 | `attach_context` | — moves the fields of one iterator into another, as in the owned copy of the file |
| 277-283 | `new` | — constructor: the initial state in the model of the iterator |
| 286-293 | `leaves` | — moves the fields of one iterator into another, as in the owned copy of the file |
| 296-303 | `attach_context` | Postorder |
| 306-313 | `attach_ancestors` | — moves the fields of one iterator into another, as in the owned copy of the file |
| 337-343 | `new` | — constructor: the initial state in the model of the iterator |
| 346-355 | `leaves` | — moves the fields of one iterator into another, as in the owned copy of the file |
| 386-396 | `new` | Postorder, SharedPost |
| 404-444 | `advance` | FailPostBin, Postorder, RoundsCtx, SharedPost |
| 446-452 | `get` | Postorder |
| 459-465 | `get_mut` | SliceEdit |

## `dfs_preorder_iterators/borrow.rs`

| lines | function | model modules |
|---|---|---|
| 41-45 | `attach_context` | — moves the fields of one iterator into another, as in the owned copy of the file |
| 68-73 | `new` | — constructor: the initial state in the model of the iterator |
| 84-102 | `next` | — identical to the owned copy of the file |
| 111-116 | `current_path` | — identical to the owned copy of the file |
| 118-122 | `prune_current_subtree` | — identical to the owned copy of the file |
| 139-143 | `attach_context` | — moves the fields of one iterator into another, as in the owned copy of the file |
| 164-169 | `new` | — constructor: the initial state in the model of the iterator |
| 172-181 | `leaves` | — moves the fields of one iterator into another, as in the owned copy of the file |
| 184-191 | `attach_context` | — moves the fields of one iterator into another, as in the owned copy of the file |
| 194-201 | `attach_ancestors` | — moves the fields of one iterator into another, as in the owned copy of the file |
| 226-233 | `new` | — constructor: the initial state in the model of the iterator |
| 249-251 | `current_path` | — identical to the owned copy of the file |
| 253-255 | `prune_current_subtree` | — identical to the owned copy of the file |
| 278-288 | `new` | — constructor: the initial state in the model of the iterator |
| 312-318 | `new` | — constructor: the initial state in the model of the iterator |
| 321-334 | `leaves` | — moves the fields of one iterator into another, as in the owned copy of the file |
| 367-372 | `new` | — constructor: the initial state in the model of the iterator |
| 383-401 | `next` | — identical to the owned copy of the file |
| 410-415 | `current_path` | — identical to the owned copy of the file |
| 417-421 | `prune_current_subtree` | — identical to the owned copy of the file |
| 444-449 | `new` | — constructor: the initial state in the model of the iterator |
| 452-459 | `leaves` | — moves the fields of one iterator into another, as in the owned copy of the file |
| 462-469 | `attach_context` | — moves the fields of one iterator into another, as in the owned copy of the file |
| 472-479 | `attach_ancestors` | — moves the fields of one iterator into another, as in the owned copy of the file |
| 504-511 | `new` | — constructor: the initial state in the model of the iterator |
| 527-529 | `current_path` | — identical to the owned copy of the file |
| 531-533 | `prune_current_subtree` | — identical to the owned copy of the file |
| 556-562 | `new` | — constructor: the initial state in the model of the iterator |
| 565-575 | `leaves` | — moves the fields of one iterator into another, as in the owned copy of the file |
| 599-609 | `new` | — constructor: the initial state in the model of the iterator |

## `dfs_preorder_iterators/mod.rs`

| lines | function | model modules |
|---|---|---|
| 7-31 | `next` | Fail, Flaky, Handles, Poll, Preorder, Rounds, Shared |
| 37-69 | `next` | FailPipe, PathBuf, Pipeline |
| 75-110 | `next` | Exchange, FailPipe, PathBuf, Pipeline |
| 116-142 | `advance` | Exchange, Fail, Flaky, HandlesMore, Poll, Preorder, Rounds, Shared |
| 144-150 | `get` | Exchange, Flaky, Poll, Preorder, Shared |
| 156-162 | `get_mut` | Exchange, SliceEdit |
| 168-217 | `advance` | Exchange, Fail, Flaky, Handles, Poll, Preorder, Rounds, SharedCtx |
| 219-225 | `get` | Exchange, Flaky, Poll, Preorder, SharedCtx |
| 231-283 | `advance` | Exchange, Fail, Preorder, RoundsCtx, SharedCtx |
| 285-291 | `get` | Preorder |
| 297-303 | `get_mut` | Edit, Exchange, SharedCtx, SliceEdit |

## `dfs_preorder_iterators/mut_borrow.rs`

| lines | function | model modules |
|---|---|---|
| 43-47 | `attach_context` | — moves the fields of one iterator into another, as in the owned copy of the file |
| 71-76 | `new` | — constructor: the initial state in the model of the iterator |
| 87-105 | `next` | — identical to the owned copy of the file |
| 115-120 | `current_path` | — identical to the owned copy of the file |
| 122-126 | `prune_current_subtree` | — identical to the owned copy of the file |
| 149-154 | `new` | — constructor: the initial state in the model of the iterator |
| 157-167 | `leaves` | — moves the fields of one iterator into another, as in the owned copy of the file |
| 170-177 | `attach_context` | — moves the fields of one iterator into another, as in the owned copy of the file |
| 180-187 | `attach_ancestors` | — moves the fields of one iterator into another, as in the owned copy of the file |
| 212-219 | `new` | — constructor: the initial state in the model of the iterator |
| 235-237 | `current_path` | — identical to the owned copy of the file |
| 239-241 | `prune_current_subtree` | — identical to the owned copy of the file |
| 264-274 | `new` | — constructor: the initial state in the model of the iterator |
| 305-311 | `new` | — constructor: the initial state in the model of the iterator |
| 314-327 | `leaves` | — moves the fields of one iterator into another, as in the owned copy of the file |
| 366-371 | `new` | — constructor: the initial state in the model of the iterator |
| 382-400 | `next` | — identical to the owned copy of the file |
| 410-415 | `current_path` | — identical to the owned copy of the file |
| 417-421 | `prune_current_subtree` | — identical to the owned copy of the file |
| 439-443 | `attach_context` | — moves the fields of one iterator into another, as in the owned copy of the file |
| 464-469 | `new` | — constructor: the initial state in the model of the iterator |
| 472-479 | `leaves` | — moves the fields of one iterator into another, as in the owned copy of the file |
| 482-489 | `attach_context` | — moves the fields of one iterator into another, as in the owned copy of the file |
| 492-499 | `attach_ancestors` | — moves the fields of one iterator into another, as in the owned copy of the file |
| 524-531 | `new` | — constructor: the initial state in the model of the iterator |
| 547-549 | `current_path` | — identical to the owned copy of the file |
| 551-553 | `prune_current_subtree` | — identical to the owned copy of the file |
| 576-584 | `new` | — constructor: the initial state in the model of the iterator |
| 587-600 | `leaves` | — moves the fields of one iterator into another, as in the owned copy of the file |
| 631-641 | `new` | — constructor: the initial state in the model of the iterator |

## `dfs_preorder_iterators/owned.rs`

| lines | function | model modules |
|---|---|---|
| 43-45 | `attach_context` | — moves the fields of one iterator into another, as in the owned copy of the file |
| 68-73 | `new` | CollectionPipeline, LazyCollPipe |
| 83-102 | `next` | CollectionApi, CollectionPipeline, FailColl, LazyCollPipe, PathBuf, PathBufChain |
| 114-119 | `current_path` | CollectionPipeline, FailColl, LazyCollPipe, PathBuf |
| 121-125 | `prune_current_subtree` | CollectionPipeline, FailColl, LazyCollPipe |
| 151-156 | `new` | Flaky, Preorder, Shared |
| 159-166 | `leaves` | Flaky, Leaves, Poll, Shared |
| 169-176 | `attach_context` | Flaky, Preorder |
| 179-186 | `attach_ancestors` | Flaky, Preorder |
| 211-218 | `new` | Pipeline |
| 234-236 | `current_path` | FailPipe, LazyPipe, Pipeline |
| 238-240 | `prune_current_subtree` | FailPipe, LazyPipe, Pipeline |
| 263-273 | `new` | Flaky, Preorder, SharedCtx |
| 304-310 | `new` | Flaky, Preorder, Shared |
| 313-325 | `leaves` | Flaky, Leaves, Poll, SharedLeaf |
| 363-368 | `new` | — constructor: the initial state in the model of the iterator |
| 379-397 | `next` | CollectionApi |
| 406-411 | `current_path` | — as lines 104-116 of the same file, for general trees |
| 413-417 | `prune_current_subtree` | — as lines 104-116 of the same file, for general trees |
| 434-436 | `attach_context` | — moves the fields of one iterator into another, as in the owned copy of the file |
| 457-462 | `new` | — constructor: the initial state in the model of the iterator |
| 465-472 | `leaves` | — moves the fields of one iterator into another, as in the owned copy of the file |
| 475-482 | `attach_context` | Preorder |
| 485-492 | `attach_ancestors` | — moves the fields of one iterator into another, as in the owned copy of the file |
| 517-524 | `new` | — constructor: the initial state in the model of the iterator |
| 540-542 | `current_path` | FailPipe, LazyPipe, Pipeline |
| 544-546 | `prune_current_subtree` | FailPipe, LazyPipe, Pipeline |
| 569-575 | `new` | — constructor: the initial state in the model of the iterator |
| 578-587 | `leaves` | — moves the fields of one iterator into another, as in the owned copy of the file |
| 618-628 | `new` | Preorder, SharedCtx |

## `examples.rs`

| lines | function | model modules |
|---|---|---|
| 4-50 | `create_example_binary_tree` | — example trees of the documentation, not modelled |
| 52-99 | `create_example_tree` | — example trees of the documentation, not modelled |

## `leaves_iterators/ancestors_breadth_first/borrow.rs`

| lines | function | model modules |
|---|---|---|
| 57-71 | `new` | — constructor: the initial state in the model of the iterator |

## `leaves_iterators/ancestors_breadth_first/mod.rs`

| lines | function | model modules |
|---|---|---|
| 7-59 | `advance_dfs` | BfsCache, Uninit |
| 61-77 | `pop_from_item_stack` | BfsCache |
| 83-89 | `get_mut` | Exchange |
| 95-150 | `advance` | BfsCache, Exchange, Fail, Flaky, HandlesMore, Poll, SharedLeaf |
| 152-158 | `get` | Poll, SharedLeaf |

## `leaves_iterators/ancestors_breadth_first/mut_borrow.rs`

| lines | function | model modules |
|---|---|---|
| 64-78 | `new` | — constructor: the initial state in the model of the iterator |

## `leaves_iterators/ancestors_breadth_first/owned.rs`

| lines | function | model modules |
|---|---|---|
| 63-77 | `new` | — constructor: the initial state in the model of the iterator |

## `leaves_iterators/ancestors_depth_first/mod.rs`

| lines | function | model modules |
|---|---|---|
| 7-54 | `advance` | Exchange, Fail, Flaky, HandlesMore, Leaves, Poll, Rounds, SharedLeaf |
| 56-62 | `get` | Flaky, Leaves, Poll, SharedLeaf |
| 68-74 | `get_mut` | Exchange |

## `leaves_iterators/breadth_first/mod.rs`

| lines | function | model modules |
|---|---|---|
| 7-59 | `bfs_next` | Bfs, Fail, Flaky, HandlesMore, Poll, Rounds, Shared |
| 65-78 | `next` | Bfs, Fail, Flaky, HandlesMore, Poll, Shared |

## `leaves_iterators/depth_first/mod.rs`

| lines | function | model modules |
|---|---|---|
| 7-45 | `next` | Fail, Flaky, HandlesMore, Leaves, Poll, Rounds, Shared |

## `prelude.rs`

| lines | function | model modules |
|---|---|---|
| 110-112 | `cloned` | MutPipe |
| 120-122 | `cloned` | MutPipe |
| 142-144 | `cloned` | MutPipe |
| 152-154 | `cloned` | MutPipe |
| 180-188 | `get_value_and_children` | SharedCtx |
| 192-202 | `at_path` | AtPath |
| 232-234 | `bfs` | — default method: constructs the iterator |
| 264-266 | `dfs_preorder` | — default method: constructs the iterator |
| 297-299 | `dfs_inorder` | — default method: constructs the iterator |
| 333-335 | `dfs_postorder` | — default method: constructs the iterator |
| 401-403 | `into_pipeline` | FailPipe, LazyPipe, PathBuf, Pipeline, PipelineApi |
| 472-477 | `prune` | PipelineApi |
| 537-542 | `prune_depth` | LazyPipe, PipelineApi |
| 607-612 | `prune_path` | PipelineApi |
| 668-673 | `map` | PipelineApi |
| 678-683 | `map_path` | PipelineApi |
| 719-726 | `fold` | PipelineApi |
| 731-738 | `fold_path` | PipelineApi |
| 761-771 | `at_path` | AtPath |
| 801-803 | `bfs` | — default method: constructs the iterator |
| 833-835 | `dfs_preorder` | — default method: constructs the iterator |
| 869-871 | `dfs_postorder` | — default method: constructs the iterator |
| 938-940 | `into_pipeline` | FailPipe, LazyPipe, PathBuf, Pipeline, PipelineApi |
| 1005-1010 | `prune` | PipelineApi |
| 1075-1080 | `prune_path` | PipelineApi |
| 1138-1143 | `prune_depth` | LazyPipe, PipelineApi |
| 1199-1204 | `map` | PipelineApi |
| 1209-1214 | `map_path` | PipelineApi |
| 1249-1254 | `fold` | PipelineApi |
| 1259-1264 | `fold_path` | PipelineApi |
| 1286-1296 | `get_value_and_children_iter_mut` | — default method: `into_pipeline` with one stage, as in the owned trait |
| 1300-1310 | `at_path_mut` | AtPathMut |
| 1340-1342 | `bfs_iter_mut` | — default method: constructs the iterator |
| 1372-1374 | `dfs_preorder_iter_mut` | — default method: constructs the iterator |
| 1405-1407 | `dfs_inorder_iter_mut` | — default method: constructs the iterator |
| 1441-1443 | `dfs_postorder_iter_mut` | — default method: constructs the iterator |
| 1509-1513 | `into_pipeline_mut` | — constructor, as `into_pipeline` |
| 1582-1587 | `prune_mut` | MutPipe |
| 1652-1657 | `prune_path_mut` | MutPipe |
| 1717-1722 | `prune_depth_mut` | MutPipe |
| 1778-1783 | `map_mut` | MutPipe |
| 1788-1793 | `map_path_mut` | MutPipe |
| 1829-1834 | `fold_mut` | MutPipe |
| 1839-1844 | `fold_path_mut` | MutPipe |
| 1868-1878 | `at_path_mut` | AtPathMut |
| 1908-1910 | `bfs_iter_mut` | — default method: constructs the iterator |
| 1940-1942 | `dfs_preorder_iter_mut` | — default method: constructs the iterator |
| 1976-1978 | `dfs_postorder_iter_mut` | — default method: constructs the iterator |
| 2045-2049 | `into_pipeline_mut` | — constructor, as `into_pipeline` |
| 2114-2119 | `prune_mut` | MutPipe |
| 2184-2189 | `prune_path_mut` | MutPipe |
| 2247-2252 | `prune_depth_mut` | MutPipe |
| 2308-2313 | `map_mut` | MutPipe |
| 2318-2323 | `map_path_mut` | MutPipe |
| 2358-2363 | `fold_mut` | MutPipe |
| 2368-2373 | `fold_path_mut` | MutPipe |
| 2394-2402 | `get_value_and_children_iter` | — default method: `into_pipeline` with one stage, as in the owned trait |
| 2406-2416 | `at_path_ref` | — default method: `into_pipeline` with one stage, as in the owned trait |
| 2446-2448 | `bfs_iter` | — default method: constructs the iterator |
| 2478-2480 | `dfs_preorder_iter` | — default method: constructs the iterator |
| 2511-2513 | `dfs_inorder_iter` | — default method: constructs the iterator |
| 2547-2549 | `dfs_postorder_iter` | — default method: constructs the iterator |
| 2615-2619 | `into_pipeline_ref` | — constructor, as `into_pipeline` |
| 2688-2693 | `prune_ref` | — default method: `into_pipeline` with one stage, as in the owned trait |
| 2758-2763 | `prune_path_ref` | — default method: `into_pipeline` with one stage, as in the owned trait |
| 2823-2828 | `prune_depth_ref` | — default method: `into_pipeline` with one stage, as in the owned trait |
| 2884-2889 | `map_ref` | — default method: `into_pipeline` with one stage, as in the owned trait |
| 2894-2899 | `map_path_ref` | — default method: `into_pipeline` with one stage, as in the owned trait |
| 2935-2940 | `fold_ref` | — default method: `into_pipeline` with one stage, as in the owned trait |
| 2945-2950 | `fold_path_ref` | — default method: `into_pipeline` with one stage, as in the owned trait |
| 2971-2981 | `at_path_ref` | — default method: `into_pipeline` with one stage, as in the owned trait |
| 3011-3013 | `bfs_iter` | — default method: constructs the iterator |
| 3043-3045 | `dfs_preorder_iter` | — default method: constructs the iterator |
| 3079-3081 | `dfs_postorder_iter` | — default method: constructs the iterator |
| 3148-3152 | `into_pipeline_ref` | — constructor, as `into_pipeline` |
| 3217-3222 | `prune_ref` | — default method: `into_pipeline` with one stage, as in the owned trait |
| 3287-3292 | `prune_path_ref` | — default method: `into_pipeline` with one stage, as in the owned trait |
| 3350-3355 | `prune_depth_ref` | — default method: `into_pipeline` with one stage, as in the owned trait |
| 3411-3416 | `map_ref` | — default method: `into_pipeline` with one stage, as in the owned trait |
| 3421-3426 | `map_path_ref` | — default method: `into_pipeline` with one stage, as in the owned trait |
| 3461-3466 | `fold_ref` | — default method: `into_pipeline` with one stage, as in the owned trait |
| 3471-3476 | `fold_path_ref` | — default method: `into_pipeline` with one stage, as in the owned trait |
| 3486-3488 | `get_value_and_children` | — default method: `into_pipeline` with one stage, as in the owned trait |
| 3501-3505 | `get_value_and_children_iter_mut` | AtPathMut, MutRef |
| 3518-3520 | `get_value_and_children_iter` | — default method: `into_pipeline` with one stage, as in the owned trait |
| 3526-3534 | `get_value_and_children_binary` | — default method: `into_pipeline` with one stage, as in the owned trait |
| 3543-3559 | `get_value_and_children_binary_iter_mut` | AtPathMut, MutRef |
| 3568-3584 | `get_value_and_children_binary_iter` | — default method: `into_pipeline` with one stage, as in the owned trait |
| 3593-3597 | `at_path` | AtPath |
| 3600-3602 | `into_pipeline` | CollectionApi, CollectionPipeline, FailColl, LazyCollPipe, PathBuf |
| 3613-3615 | `bfs_each` | — default method: constructs the iterator |
| 3626-3628 | `dfs_preorder_each` | — default method: constructs the iterator |
| 3639-3641 | `dfs_postorder_each` | — default method: constructs the iterator |
| 3701-3718 | `prune_each` | CollectionApi |
| 3724-3741 | `prune_path_each` | CollectionApi |
| 3748-3761 | `prune_depth_each` | CollectionApi |
| 3767-3785 | `map_each` | CollectionApi |
| 3791-3809 | `map_path_each` | CollectionApi |
| 3815-3829 | `fold_each` | CollectionApi |
| 3835-3849 | `fold_path_each` | CollectionApi |
| 3858-3862 | `at_path` | AtPath |
| 3865-3872 | `into_pipeline` | CollectionApi, LazyCollPipe |
| 3883-3885 | `bfs_each` | — default method: constructs the iterator |
| 3896-3898 | `dfs_preorder_each` | — default method: constructs the iterator |
| 3909-3911 | `dfs_inorder_each` | — default method: constructs the iterator |
| 3922-3924 | `dfs_postorder_each` | — default method: constructs the iterator |
| 3986-4003 | `prune_each` | CollectionApi |
| 4009-4026 | `prune_path_each` | CollectionApi |
| 4033-4046 | `prune_depth_each` | CollectionApi |
| 4052-4070 | `map_each` | CollectionApi |
| 4076-4094 | `map_path_each` | CollectionApi |
| 4100-4114 | `fold_each` | CollectionApi |
| 4120-4134 | `fold_path_each` | CollectionApi |
| 4143-4147 | `at_path_mut` | AtPathMut |
| 4150-4154 | `into_pipeline_mut` | MutColl |
| 4165-4167 | `bfs_each_iter_mut` | MutColl |
| 4178-4180 | `dfs_preorder_each_iter_mut` | MutColl |
| 4191-4193 | `dfs_postorder_each_iter_mut` | MutColl |
| 4253-4270 | `prune_each_mut` | MutColl |
| 4276-4293 | `prune_path_each_mut` | MutColl |
| 4300-4313 | `prune_depth_each_mut` | MutColl |
| 4319-4337 | `map_each_mut` | MutColl |
| 4343-4361 | `map_path_each_mut` | MutColl |
| 4367-4381 | `fold_each_mut` | MutColl |
| 4387-4401 | `fold_path_each_mut` | MutColl |
| 4411-4415 | `at_path_mut` | AtPathMut |
| 4418-4422 | `into_pipeline_mut` | MutColl |
| 4433-4435 | `bfs_each_iter_mut` | MutColl |
| 4446-4450 | `dfs_preorder_each_iter_mut` | MutColl |
| 4461-4463 | `dfs_inorder_each_iter_mut` | MutColl |
| 4474-4478 | `dfs_postorder_each_iter_mut` | MutColl |
| 4540-4557 | `prune_each_mut` | MutColl |
| 4563-4580 | `prune_path_each_mut` | MutColl |
| 4587-4600 | `prune_depth_each_mut` | MutColl |
| 4606-4624 | `map_each_mut` | MutColl |
| 4630-4648 | `map_path_each_mut` | MutColl |
| 4654-4668 | `fold_each_mut` | MutColl |
| 4674-4688 | `fold_path_each_mut` | MutColl |
| 4697-4701 | `at_path_ref` | — default method: `into_pipeline` with one stage, as in the owned trait |
| 4704-4708 | `into_pipeline_ref` | — constructor, as `into_pipeline` |
| 4719-4721 | `bfs_each_iter` | — default method: constructs the iterator |
| 4732-4734 | `dfs_preorder_each_iter` | — default method: constructs the iterator |
| 4745-4747 | `dfs_postorder_each_iter` | — default method: constructs the iterator |
| 4807-4824 | `prune_each_ref` | — default method: `into_pipeline` with one stage, as in the owned trait |
| 4830-4847 | `prune_path_each_ref` | — default method: `into_pipeline` with one stage, as in the owned trait |
| 4854-4867 | `prune_depth_each_ref` | — default method: `into_pipeline` with one stage, as in the owned trait |
| 4873-4891 | `map_each_ref` | — default method: `into_pipeline` with one stage, as in the owned trait |
| 4897-4915 | `map_path_each_ref` | — default method: `into_pipeline` with one stage, as in the owned trait |
| 4921-4935 | `fold_each_ref` | — default method: `into_pipeline` with one stage, as in the owned trait |
| 4941-4955 | `fold_path_each_ref` | — default method: `into_pipeline` with one stage, as in the owned trait |
| 4964-4968 | `at_path_ref` | — default method: `into_pipeline` with one stage, as in the owned trait |
| 4971-4975 | `into_pipeline_ref` | — constructor, as `into_pipeline` |
| 4986-4988 | `bfs_each_iter` | — default method: constructs the iterator |
| 4999-5001 | `dfs_preorder_each_iter` | — default method: constructs the iterator |
| 5012-5014 | `dfs_inorder_each_iter` | — default method: constructs the iterator |
| 5025-5027 | `dfs_postorder_each_iter` | — default method: constructs the iterator |
| 5089-5106 | `prune_each_ref` | — default method: `into_pipeline` with one stage, as in the owned trait |
| 5112-5129 | `prune_path_each_ref` | — default method: `into_pipeline` with one stage, as in the owned trait |
| 5136-5149 | `prune_depth_each_ref` | — default method: `into_pipeline` with one stage, as in the owned trait |
| 5155-5173 | `map_each_ref` | — default method: `into_pipeline` with one stage, as in the owned trait |
| 5179-5197 | `map_path_each_ref` | — default method: `into_pipeline` with one stage, as in the owned trait |
| 5203-5217 | `fold_each_ref` | — default method: `into_pipeline` with one stage, as in the owned trait |
| 5223-5237 | `fold_path_each_ref` | — default method: `into_pipeline` with one stage, as in the owned trait |
| 5283-5285 | `opt_to_opt` | — default method: `into_pipeline` with one stage, as in the owned trait |

## `tree_collection_iterators/fold.rs`

| lines | function | model modules |
|---|---|---|
| 25-34 | `new` | — constructor: the initial state in the model of the iterator |
| 44-84 | `next` | CollectionPipeline, FailColl, FailFold, LazyCollPipe |
| 105-114 | `new` | — constructor: the initial state in the model of the iterator |
| 124-163 | `next` | CollectionPipeline, FailPlace, LazyCollPipe |

## `tree_collection_iterators/fold_path.rs`

| lines | function | model modules |
|---|---|---|
| 25-34 | `new` | — constructor: the initial state in the model of the iterator |
| 44-92 | `next` | CollectionPipeline, FailPlace, LazyCollPipe |
| 113-122 | `new` | — constructor: the initial state in the model of the iterator |
| 133-176 | `next` | CollectionPipeline, FailPlace, LazyCollPipe |

## `tree_collection_iterators/map.rs`

| lines | function | model modules |
|---|---|---|
| 21-28 | `new` | — constructor: the initial state in the model of the iterator |
| 39-41 | `next` | FailPipe, Pipeline |
| 50-52 | `current_path` | FailPipe, Pipeline |
| 54-56 | `prune_current_subtree` | FailPipe, Pipeline |

## `tree_collection_iterators/map_path.rs`

| lines | function | model modules |
|---|---|---|
| 21-28 | `new` | — constructor: the initial state in the model of the iterator |
| 39-43 | `next` | PathBuf, Pipeline |
| 52-54 | `current_path` | — hands the call on to the stage inside, as in the file of the same name for single trees |
| 56-58 | `prune_current_subtree` | — hands the call on to the stage inside, as in the file of the same name for single trees |

## `tree_collection_iterators/mod.rs`

| lines | function | model modules |
|---|---|---|
| 49-51 | `current_depth` | Pipeline |
| 136-143 | `prune_depth` | LazyCollPipe |
| 202-207 | `map_trees` | LazyCollPipe |
| 213-218 | `map_path` | LazyCollPipe |
| 302-307 | `prune` | LazyCollPipe |
| 313-318 | `prune_path` | LazyCollPipe |
| 373-378 | `fold_trees` | LazyCollPipe |
| 384-389 | `fold_path` | LazyCollPipe |
| 422-424 | `trees` | LazyCollPipe |
| 513-518 | `prune` | LazyCollPipe |
| 524-529 | `prune_path` | LazyCollPipe |
| 586-591 | `fold_trees` | LazyCollPipe |
| 597-602 | `fold_path` | LazyCollPipe |
| 632-634 | `trees` | LazyCollPipe |

## `tree_collection_iterators/prune.rs`

| lines | function | model modules |
|---|---|---|
| 25-34 | `new` | CollChain, CollectionPipeline |
| 44-86 | `next` | FailPipe, Pipeline |
| 95-97 | `current_path` | — hands the call on to the stage inside, as in the file of the same name for single trees |
| 99-101 | `prune_current_subtree` | — hands the call on to the stage inside, as in the file of the same name for single trees |
| 128-135 | `new` | — constructor: the initial state in the model of the iterator |
| 146-157 | `next` | FailPipe, Pipeline |
| 166-168 | `current_path` | — hands the call on to the stage inside, as in the file of the same name for single trees |
| 170-172 | `prune_current_subtree` | — hands the call on to the stage inside, as in the file of the same name for single trees |

## `tree_collection_iterators/prune_depth.rs`

| lines | function | model modules |
|---|---|---|
| 21-31 | `next` | FailPipe, LazyCollPipe, PathBufChain, Pipeline |
| 39-44 | `current_path` | — hands the call on to the stage inside, as in the file of the same name for single trees |
| 46-48 | `prune_current_subtree` | — hands the call on to the stage inside, as in the file of the same name for single trees |

## `tree_collection_iterators/prune_path.rs`

| lines | function | model modules |
|---|---|---|
| 25-39 | `new` | CollChain, CollectionPipeline, PathBufChain |
| 49-91 | `next` | FailPipe, Pipeline |
| 100-102 | `current_path` | — hands the call on to the stage inside, as in the file of the same name for single trees |
| 104-106 | `prune_current_subtree` | — hands the call on to the stage inside, as in the file of the same name for single trees |
| 133-140 | `new` | — constructor: the initial state in the model of the iterator |
| 151-163 | `next` | FailPipe, Pipeline |
| 172-174 | `current_path` | — hands the call on to the stage inside, as in the file of the same name for single trees |
| 176-178 | `prune_current_subtree` | — hands the call on to the stage inside, as in the file of the same name for single trees |

## `tree_collection_iterators/trees.rs`

| lines | function | model modules |
|---|---|---|
| 20-27 | `new` | — constructor: the initial state in the model of the iterator |
| 36-76 | `next` | CollectionPipeline, FailColl, LazyCollPipe |
| 98-105 | `new` | — constructor: the initial state in the model of the iterator |
| 114-166 | `next` | CollectionPipeline, LazyCollPipe |

## `tree_context.rs`

| lines | function | model modules |
|---|---|---|
| 35-37 | `depth` | — field accessor: the fields of `Ctx` |
| 40-42 | `path` | SharedCtx |
| 45-47 | `ancestors` | SharedCtx |
| 50-52 | `ancestors_mut` | Edit, SharedCtx, SliceEdit |
| 55-58 | `children` | SharedCtx |
| 61-64 | `children_mut` | Edit, SharedCtx |

## `tree_iterators/map.rs`

| lines | function | model modules |
|---|---|---|
| 21-28 | `new` | — constructor: the initial state in the model of the iterator |
| 38-40 | `next` | FailPipe, LazyPipe, PathBufChain, Pipeline |
| 49-51 | `current_path` | FailPipe, LazyPipe, PathBufChain, Pipeline |
| 53-55 | `prune_current_subtree` | FailPipe, LazyPipe, PathBufChain, Pipeline |

## `tree_iterators/map_path.rs`

| lines | function | model modules |
|---|---|---|
| 21-28 | `new` | — constructor: the initial state in the model of the iterator |
| 39-45 | `next` | PathBuf, PathBufChain, Pipeline |
| 54-56 | `current_path` | Pipeline |
| 58-60 | `prune_current_subtree` | Pipeline |

## `tree_iterators/mod.rs`

| lines | function | model modules |
|---|---|---|
| 43-45 | `current_depth` | Drive, LazyPipe, PipeMemory, Pipeline |
| 110-117 | `prune_depth` | — constructor of the stage |
| 164-169 | `map_tree` | — constructor of the stage |
| 175-180 | `map_path` | — constructor of the stage |
| 249-254 | `prune` | — constructor of the stage |
| 260-265 | `prune_path` | — constructor of the stage |
| 293-327 | `collect_tree` | LazyPipe, Pipeline, PipelineApi |
| 379-407 | `fold_tree` | LazyPipe, Pipeline |
| 412-446 | `fold_path` | Pipeline |
| 518-523 | `prune` | — constructor of the stage |
| 529-534 | `prune_path` | — constructor of the stage |
| 564-616 | `collect_tree` | LazyPipe, Pipeline, PipelineApi |
| 670-677 | `fold_tree` | Pipeline |
| 682-716 | `fold_path` | LazyPipe, Pipeline |

## `tree_iterators/prune.rs`

| lines | function | model modules |
|---|---|---|
| 25-34 | `new` | Pipeline |
| 44-86 | `next` | FailPipe, LazyPipe, PathBufChain, Pipeline |
| 95-97 | `current_path` | FailPipe, LazyPipe, PathBufChain, Pipeline |
| 99-101 | `prune_current_subtree` | FailPipe, LazyPipe, PathBufChain, Pipeline |
| 128-135 | `new` | — constructor: the initial state in the model of the iterator |
| 145-156 | `next` | FailPipe, LazyPipe, PathBufChain, Pipeline |
| 165-167 | `current_path` | FailPipe, LazyPipe, PathBufChain, Pipeline |
| 169-171 | `prune_current_subtree` | FailPipe, LazyPipe, PathBufChain, Pipeline |

## `tree_iterators/prune_depth.rs`

| lines | function | model modules |
|---|---|---|
| 21-31 | `next` | FailPipe, LazyPipe, PathBufChain, Pipeline |
| 39-44 | `current_path` | FailPipe, LazyPipe, PathBufChain, Pipeline |
| 46-48 | `prune_current_subtree` | FailPipe, LazyPipe, PathBufChain, Pipeline |

## `tree_iterators/prune_path.rs`

| lines | function | model modules |
|---|---|---|
| 25-34 | `new` | Pipeline |
| 44-86 | `next` | FailPipe, LazyPipe, PathBufChain, Pipeline |
| 95-97 | `current_path` | LazyPipe, PathBufChain, Pipeline |
| 99-101 | `prune_current_subtree` | LazyPipe, PathBufChain, Pipeline |
| 128-135 | `new` | — constructor: the initial state in the model of the iterator |
| 145-157 | `next` | FailPipe, LazyPipe, PathBufChain, Pipeline |
| 166-168 | `current_path` | LazyPipe, PathBufChain, Pipeline |
| 170-172 | `prune_current_subtree` | LazyPipe, PathBufChain, Pipeline |
