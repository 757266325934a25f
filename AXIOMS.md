# Axioms

Output of `#print axioms` for every theorem named in MANIFEST.json (prefix `TreeIter.` left out).

## none (1)

C53_root

## propext (16)

C16_at_path, C16_at_path_binary, C23_bfs_ancestors, C23_bfs_context, C23_preorder_ancestors, C23_preorder_context, C39_written, C56_written, C57_lawful_collection, C61_bfs_children, C62_bfs_attach, C79_preorder_context_dead, C81_leaves, C81_postorder, C81_preorder, C81_preorder_ancestors

## propext, Quot.sound (238)

C01_preorder, C01_preorder_binary, C05_preorder, C08_inorder_ancestors, C13_inorder_context, C13_inorder_context_owned, C14_bfs_context_overflow, C15_inorder, C15_inorder_owned, C16_at_path_binary_none, C16_at_path_collection, C16_at_path_collection_binary, C16_at_path_none, C17_inorder_leaves, C17_postorder_leaves, C17_preorder_leaves, C18_inorder_false, C18_postorder_false, C18_preorder_false, C21_inorder_false, C21_postorder_false, C21_preorder_false, C23_bfs_context_binary, C23_inorder_ancestors, C23_inorder_context, C23_inorder_context_owned, C23_postorder_ancestors, C23_postorder_context, C23_postorder_context_binary, C23_postorder_context_binary_owned, C23_postorder_context_owned, C23_preorder_context_binary, C24_inorder_ancestors_partial, C24_inorder_context_owned_partial, C24_inorder_context_partial, C25_preorder, C26_inorder, C26_inorder_owned, C27_binary, C28_binary, C29_binary_partial, C30_binary, C31_binary, C32_binary, C32_binary_path, C32_false, C32_foldPath_partial, C32_prunePath_partial, C32_prune_partial, C32_values, C33_binary, C34_binary, C34_general, C35_binary, C35_general, C36_binary_collect, C36_binary_fold, C36_binary_foldPath, C36_fold, C36_stateful_differs, C40_leaves, C40_postorder, C40_preorder, C41_preorder, C42_binary_emits, C42_emits, C42_foldPath, C44_inorder, C44_slices_inorder, C45_fold_leaves, C45_fold_preorder, C46_client, C46_drive, C46_drive_binary, C46_never, C47_preorder, C47_preorder_misses, C48_preorder, C48_preorder_order, C49_bfs_ancestors_false, C49_bfs_context_binary_false, C49_bfs_context_false, C50_bfs_ancestors_leaves_false, C50_bfs_ancestors_leaves_single_partial, C50_collection_inorder_context, C50_collection_inorder_owned_context, C50_collection_preorder, C50_leaves, C50_postorder_ancestors_leaves_mid, C50_preorder, C50_preorder_ancestors_leaves_mid, C51_fold_binary, C51_fold_path_binary, C51_map_binary, C51_map_path_binary, C52_cloned_binary, C53_bound, C55_inorder, C55_inorder_context, C56_inorder, C57_lawful, C57_lawful_binary, C58_bfs_context_binary_false, C58_bfs_context_false, C58_collection_bfs_context_false, C61_preorder, C62_bfs_context_binary_false, C62_bfs_context_false, C62_inorder_ancestors, C62_inorder_attach, C62_inorder_context, C62_inorder_context_owned, C62_leaves_ancestors_exact, C62_leaves_ancestors_false, C62_postorder_ancestors_exact, C62_postorder_ancestors_false, C62_postorder_ancestors_order, C62_postorder_attach, C62_postorder_context_binary_exact, C62_postorder_context_binary_false, C62_postorder_context_binary_mut_exact, C62_postorder_context_binary_owned_exact, C62_postorder_context_false, C62_postorder_leaves, C62_postorder_leaves_ancestors_exact, C62_preorder, C62_preorder_attach, C62_preorder_context_binary_exact, C62_preorder_context_binary_false, C62_preorder_context_exact, C62_preorder_context_false, C62_preorder_leaves, C62_preorder_leaves_mid, C63_binary, C63_binary_depth, C63_collection_binary, C63_collection_number, C65_endless, C65_every, C65_inorder_context, C65_inorder_context_owned, C65_preorder, C66_above, C66_above_binary, C66_again, C66_again_binary, C66_apart, C66_apart_binary, C66_collection, C66_collection_binary, C66_elsewhere, C66_elsewhere_binary, C66_found, C66_found_binary, C66_listings, C66_listings_binary, C66_nested, C66_nested_binary, C66_unwritten, C66_unwritten_binary, C66_written, C66_written_binary, C67_binary_starves, C70_binary_fold_false, C70_binary_values_false, C70_collect_false, C70_fold_false, C70_fold_path_false, C71_depth_false, C72_part_false, C73_false, C76_bfs_context_false, C76_preorder, C77_leaves, C77_postorder, C77_postorder_held, C77_preorder, C77_preorder_held, C78_context_false, C78_inorder_ancestors, C78_inorder_context_false, C78_inorder_context_owned, C78_inorder_context_partial, C79_bfs_context_false, C79_bfs_leaves_ancestors_false, C79_bfs_leaves_false, C79_leaves_ancestors_false, C79_postorder_ancestors_false, C79_postorder_context_false, C79_postorder_leaves, C79_preorder, C79_preorder_context_false, C79_preorder_leaves, C79_preorder_leaves_mid, C80_bfs_ancestors_polls, C80_bfs_context_binary, C80_bfs_leaves, C80_collection_bfs, C80_collection_inorder, C80_collection_inorder_context, C80_collection_inorder_context_owned, C80_collection_postorder, C80_collection_postorder_context, C80_collection_postorder_context_owned, C80_collection_preorder, C80_collection_preorder_context, C80_collection_preorder_context_binary, C80_inorder, C80_inorder_ancestors, C80_inorder_context, C80_inorder_context_owned, C80_inorder_leaves, C80_postorder_ancestors, C80_postorder_ancestors_leaves, C80_postorder_context, C80_postorder_context_binary, C80_postorder_context_binary_mut, C80_postorder_context_binary_owned, C80_postorder_context_owned, C80_postorder_leaves, C80_preorder, C80_preorder_ancestors, C80_preorder_ancestors_leaves, C80_preorder_context, C80_preorder_context_binary, C80_preorder_leaves, C81_bfs, C81_collection_bfs, C81_collection_inorder, C81_collection_postorder, C81_collection_preorder, C81_inorder, C81_leaves_ancestors, C81_plain_collection_preorder, C81_plain_leaves, C81_plain_preorder, C81_postorder_ancestors, unopened_not_whole

## propext, Classical.choice, Quot.sound (545)

C02_postorder, C02_postorder_binary, C03_inorder, C04_bfs, C04_bfs_binary, C05_bfs, C05_binary, C05_inorder, C05_permutations, C05_permutations_general, C05_postorder, C06_preorder_ancestors, C07_postorder_ancestors, C09_bfs_ancestors, C09_length, C10_preorder_context, C11_preorder_context_binary, C12_postorder_context, C12_postorder_context_binary, C12_postorder_context_binary_mut, C12_postorder_context_binary_owned, C12_postorder_context_owned, C14_bfs_context, C14_bfs_context_binary, C15_bfs, C15_bfs_binary, C15_postorder, C15_postorder_binary, C15_postorder_binary_mut, C15_postorder_binary_owned, C15_postorder_owned, C15_preorder, C15_preorder_binary, C18_found_are_left, C18_inorder_partial, C18_postorder_partial, C18_preorder_partial, C19_bfs_leaves, C20_inorder_leaves_ancestors, C20_postorder_leaves_ancestors, C20_preorder_leaves_ancestors, C21_inorder_partial, C21_postorder_first_partial, C21_postorder_partial, C21_preorder_always_false, C21_preorder_partial, C22_bfs_ancestors_leaves, C24_bfs_ancestors_false, C24_bfs_context_binary_partial, C24_bfs_context_partial, C24_postorder_ancestors_partial, C24_postorder_context_binary_mut_partial, C24_postorder_context_binary_owned_partial, C24_postorder_context_binary_partial, C24_postorder_context_owned_partial, C24_postorder_context_partial, C24_preorder_ancestors_partial, C24_preorder_context_binary_partial, C24_preorder_context_partial, C25_bfs, C25_inorder, C25_postorder, C26_bfs, C26_bfs_binary, C26_postorder, C26_postorder_binary, C26_postorder_binary_mut, C26_postorder_binary_owned, C26_postorder_owned, C26_preorder, C26_preorder_binary, C27_binary_collection, C27_collection, C27_general, C28_general, C29_binary_collection_partial, C29_collection_false, C29_collection_partial, C29_false, C29_general_partial, C30_general, C31_general, C33_general, C36_binary_then_map, C36_binary_then_prune, C36_binary_then_pruneDepth, C36_binary_then_prunePath, C36_collect, C36_then_map, C36_then_prune, C36_then_pruneDepth, C37_binary_fold, C37_binary_map, C37_binary_prune, C37_binary_pruneDepth, C37_fold, C37_map, C37_prune, C37_pruneDepth, C38_binary_foldPath, C38_binary_prunePath, C38_foldPath, C38_prunePath, C39_bfs, C39_bfs_binary, C39_bfs_binary_cut, C39_bfs_binary_ends, C39_bfs_cut, C39_bfs_ends, C39_preorder, C39_preorder_binary, C39_preorder_binary_cut, C39_preorder_binary_ends, C39_preorder_cut, C39_preorder_ends, C40_inorder, C40_postorder_exact, C40_preorder_exact, C41_bfs, C41_inorder, C41_postorder, C43_bfs, C43_binary, C43_inorder, C43_leaves, C43_postorder, C43_preorder, C44_bfs, C44_postorder, C44_preorder, C44_slices, C45_collect, C45_fold_calls, C45_fold_inorder, C45_fold_postorder, C45_map_preorder, C47_bfs, C47_bfs_ancestors, C47_bfs_context, C47_bfs_context_binary, C47_bfs_reaches, C47_endless, C47_inorder, C47_inorder_ancestors, C47_inorder_context, C47_inorder_context_owned, C47_inorder_endless, C47_lazy, C47_preorder_ancestors, C47_preorder_context, C47_preorder_context_binary, C48_bfs, C48_bfs_context, C48_bfs_order, C48_postorder, C48_postorder_all, C48_postorder_context_false, C48_postorder_context_owned, C48_postorder_context_partial, C48_postorder_exact, C48_postorder_order, C48_preorder_context, C49_bfs_ancestors_partial, C49_bfs_context_binary_partial, C49_bfs_context_partial, C50_ancestors_leaves, C50_bfs, C50_bfs_ancestors, C50_bfs_ancestors_leaves_partial, C50_bfs_context, C50_bfs_leaves, C50_collection_bfs, C50_collection_bfs_binary_context, C50_collection_bfs_context, C50_collection_inorder, C50_collection_postorder, C50_collection_postorder_context, C50_collection_postorder_owned_context, C50_collection_preorder_binary_context, C50_collection_preorder_context, C50_postorder, C50_postorder_ancestors, C50_postorder_context, C50_postorder_context_owned, C50_postorder_leaves_mid, C50_preorder_ancestors, C50_preorder_context, C50_preorder_leaves_mid, C51_fold, C51_fold_path, C51_map, C51_map_path, C51_prune, C51_prune_binary, C51_prune_depth, C51_prune_depth_binary, C51_prune_path, C51_prune_path_binary, C52_cloned, C52_collect, C52_collect_binary, C52_prune, C53_exact, C53_level, C54_bfs_partial, C54_chain, C54_chain_inorder, C54_postorder_partial, C54_postorder_peak, C54_preorder_least_false, C54_preorder_peak, C55_bfs, C55_bfs_context, C55_bfs_context_binary, C55_postorder, C55_postorder_context, C55_postorder_context_binary, C55_preorder, C55_preorder_context, C55_preorder_context_binary, C56_postorder, C56_postorder_binary, C57_bfs, C57_bfs_context, C57_bfs_context_binary, C57_bfs_leaves, C57_collection_bfs_context, C57_collection_bfs_context_binary, C57_collection_inorder_context_partial, C57_collection_postorder_context_binary_partial, C57_collection_postorder_context_partial, C57_collection_preorder_context, C57_collection_preorder_context_binary, C57_inorder, C57_inorder_context_false, C57_inorder_context_partial, C57_inorder_leaves, C57_postorder, C57_postorder_context_binary_false, C57_postorder_context_binary_partial, C57_postorder_context_false, C57_postorder_context_partial, C57_postorder_leaves, C57_preorder, C57_preorder_context, C57_preorder_context_binary, C57_preorder_leaves, C58_bfs_ancestors, C58_bfs_context_binary_partial, C58_bfs_context_partial, C58_bfs_leaves, C58_collection_bfs_context_binary_partial, C58_collection_bfs_context_partial, C59_binary_collection_maps, C59_binary_maps, C59_binary_stages_depth_partial, C59_binary_stages_partial, C59_collection_map_path, C59_collection_map_path_binary, C59_collection_map_path_binary_iff, C59_collection_map_path_false, C59_collection_map_path_iff, C59_collection_maps, C59_collection_stages_partial, C59_map_path, C59_map_path_binary, C59_map_path_binary_false, C59_map_path_binary_iff, C59_map_path_false, C59_map_path_iff, C59_map_path_partial, C59_maps, C59_prune, C59_prune_false, C59_prune_iff, C59_stages_depth_partial, C59_stages_partial, C60_binary_collect, C60_binary_foldPath, C60_binary_prune_depth, C60_collect, C60_emits, C60_endless, C60_fold, C60_like_cut, C60_prune_depth, C61_bfs, C61_bfs_ancestors, C61_bfs_context, C61_preorder_ancestors, C61_preorder_context, C62_bfs, C62_bfs_ancestors, C62_bfs_context_binary_dead, C62_bfs_context_binary_partial, C62_bfs_context_dead, C62_bfs_context_partial, C62_bfs_leaves, C62_bfs_leaves_ancestors, C62_bfs_leaves_mid, C62_inorder, C62_leaves_ancestors_mid_partial, C62_leaves_ancestors_partial, C62_postorder, C62_postorder_ancestors_partial, C62_postorder_context_binary_order, C62_postorder_context_binary_partial, C62_postorder_context_exact, C62_postorder_context_order, C62_postorder_context_owned_exact, C62_postorder_context_partial, C62_preorder_ancestors, C62_preorder_context_binary_order, C62_preorder_context_binary_partial, C62_preorder_context_order, C62_preorder_context_partial, C63_collection, C63_pipeline, C63_pipeline_depth, C64_binary_fold, C64_binary_foldPath, C64_binary_then_map, C64_binary_then_prune, C64_binary_then_pruneDepth, C64_binary_trees, C64_fold, C64_foldPath, C64_then_map, C64_then_prune, C64_then_pruneDepth, C64_trees, C65_bfs, C65_bfs_context, C65_bfs_context_binary, C65_inorder, C65_postorder, C65_postorder_context, C65_postorder_context_binary, C65_postorder_context_binary_mut, C65_postorder_context_binary_owned, C65_postorder_context_owned, C65_preorder_context, C65_preorder_context_binary, C66_loop_bfs, C66_loop_bfs_binary, C66_loop_inorder, C66_loop_postorder, C66_loop_postorder_binary, C66_loop_preorder, C66_loop_preorder_binary, C67_binary_fold, C67_binary_foldPath, C67_binary_foldPath_all, C67_binary_fold_all, C67_binary_trees, C67_binary_trees_all, C67_fold, C67_foldPath, C67_foldPath_all, C67_fold_all, C67_trees, C67_trees_all, C68_bfs, C68_binary_bfs, C68_binary_fold, C68_binary_foldPath, C68_binary_map, C68_binary_postorder, C68_binary_preorder, C68_binary_prune, C68_binary_pruneDepth, C68_binary_prunePath, C68_fold, C68_foldPath, C68_inorder, C68_map, C68_postorder, C68_preorder, C68_prune, C68_pruneDepth, C68_prunePath, C69_binary_chain, C69_binary_chain_fold, C69_binary_chain_foldPath, C69_binary_fold, C69_binary_foldPath, C69_binary_map, C69_binary_prune, C69_binary_prunePath, C69_chain, C69_chain_fold, C69_chain_foldPath, C69_fold, C69_foldPath, C69_map, C69_mut_binary_fold, C69_mut_binary_foldPath, C69_mut_binary_map, C69_mut_fold, C69_mut_foldPath, C69_mut_map, C69_prune, C69_prunePath, C70_binary_collect_partial, C70_binary_fold_exact, C70_binary_fold_partial, C70_binary_fold_path_exact, C70_collect_partial, C70_fold_partial, C70_fold_path_exact, C70_fold_path_partial, C70_values, C71_binary_depth_partial, C71_binary_replies, C71_binary_world, C71_depth_partial, C71_map, C71_replies, C71_world, C72_advanced, C72_fold, C72_lost_false, C72_map_partial, C72_trees, C72_whole_partial, C73_binary_coll_replies, C73_binary_coll_world, C73_binary_replies, C73_binary_world, C73_coll_replies_partial, C73_coll_world_partial, C73_replies_partial, C73_seen, C73_skip, C73_world_partial, C74_advanced, C74_fold, C74_lost_false, C74_part_false, C74_whole_partial, C75_binary_fold, C75_binary_fold_advanced, C75_binary_fold_path, C75_binary_fold_path_advanced, C75_binary_map_partial, C75_binary_trees, C75_fold_path_partial, C75_lost_false, C75_position_false, C76_bfs, C76_bfs_binary_context, C76_bfs_context, C76_inorder, C76_inorder_context, C76_inorder_context_owned, C76_postorder, C76_postorder_binary_context, C76_postorder_binary_context_exact, C76_postorder_binary_mut_context, C76_postorder_binary_mut_context_exact, C76_postorder_binary_owned_context, C76_postorder_binary_owned_context_exact, C76_postorder_context, C76_postorder_context_exact, C76_postorder_owned_context, C76_postorder_owned_context_exact, C76_preorder_binary_context, C76_preorder_binary_context_exact, C76_preorder_context, C76_preorder_context_exact, C77_bfs, C77_bfs_ancestors, C77_bfs_context, C77_bfs_leaves, C77_bfs_leaves_ancestors, C77_leaves_ancestors, C77_postorder_ancestors, C77_postorder_context_owned, C77_preorder_ancestors, C77_preorder_context, C78_bfs_ancestors, C78_bfs_context_binary_partial, C78_bfs_context_partial, C78_leaves_ancestors_partial, C78_postorder_ancestors_partial, C78_postorder_context_partial, C78_preorder_ancestors, C78_preorder_context_binary_partial, C78_preorder_context_partial, C79_bfs, C79_bfs_ancestors, C79_bfs_context_dead, C79_bfs_context_partial, C79_bfs_leaves, C79_bfs_leaves_ancestors_partial, C79_bfs_leaves_mid, C79_bfs_leaves_partial, C79_leaves_ancestors_mid_partial, C79_leaves_ancestors_partial, C79_postorder, C79_postorder_ancestors_partial, C79_postorder_context_partial, C79_preorder_ancestors, C79_preorder_context_partial, C80_bfs, C80_bfs_ancestors, C80_bfs_ancestors_quadratic, C80_bfs_ancestors_upper, C80_bfs_context, C80_bfs_context_polls, C80_bfs_context_quadratic, C80_bfs_context_upper, C80_collection_bfs_context, C80_postorder, C81_bfs_ancestors, C81_bfs_context, C81_bfs_leaves, C81_bfs_leaves_ancestors, C81_inorder_ancestors, C81_inorder_context, C81_plain_bfs, C81_plain_bfs_ancestors, C81_plain_bfs_context, C81_plain_bfs_context_binary, C81_plain_bfs_leaves, C81_plain_bfs_leaves_ancestors, C81_plain_collection_bfs, C81_plain_collection_inorder, C81_plain_collection_postorder, C81_plain_inorder, C81_plain_inorder_ancestors, C81_plain_inorder_context, C81_plain_inorder_context_owned, C81_plain_leaves_ancestors, C81_plain_postorder, C81_plain_postorder_ancestors, C81_plain_postorder_context, C81_plain_postorder_context_binary, C81_plain_postorder_context_binary_owned, C81_plain_postorder_context_owned, C81_plain_preorder_ancestors, C81_plain_preorder_context, C81_plain_preorder_context_binary, C81_postorder_context, C81_preorder_context
