# Axioms of each theorem named in MANIFEST.json

Generated by tools/axioms.py from `#print axioms`.

| Theorem | Axioms |
|---|---|
| `Cmmc.Range.C01_sync_exact` | propext, Classical.choice, Quot.sound |
| `Cmmc.Range.C01_sync_empty_witness` | propext, Classical.choice, Quot.sound |
| `Cmmc.Range.C02_add_sub_mul_sound` | propext, Classical.choice, Quot.sound |
| `Cmmc.Range.C03_bitwise_sound` | propext, Classical.choice, Quot.sound |
| `Cmmc.Range.C04_shift_sound` | propext, Classical.choice, Quot.sound |
| `Cmmc.Range.C05_udiv_urem_sound` | propext, Classical.choice, Quot.sound |
| `Cmmc.Range.C06_srem_sound` | propext, Classical.choice, Quot.sound |
| `Cmmc.Range.C06_sdiv_sound_partial` | propext, Classical.choice, Quot.sound |
| `Cmmc.Range.C06_sdiv_full_false` | propext, Classical.choice, Quot.sound |
| `Cmmc.Range.C07_max_min_neg_sound` | propext, Classical.choice, Quot.sound |
| `Cmmc.Range.C07_abs_sound_partial` | propext, Classical.choice, Quot.sound |
| `Cmmc.Range.C07_abs_release` | propext, Quot.sound |
| `Cmmc.Range.C07_abs_assert_fails` | propext, Quot.sound |
| `Cmmc.Range.C08_sets` | propext, Classical.choice, Quot.sound |
| `Cmmc.Range.C09_facts_partial` | propext, Classical.choice, Quot.sound |
| `Cmmc.Range.C09_isEmpty_wrong` | propext, Quot.sound |
| `Cmmc.SCC.C10_calcSCC_correct` | propext, Classical.choice, Quot.sound |
| `Cmmc.SCC.C11_reverse_topological` | propext, Classical.choice, Quot.sound |
| `Cmmc.CallGraph.C28_order_bottom_up` | propext, Classical.choice, Quot.sound |
| `Cmmc.CallGraph.C28_reversed_top_down` | propext, Classical.choice, Quot.sound |
| `Cmmc.Label.C12_labels_distinct` | propext, Classical.choice, Quot.sound |
| `Cmmc.Label.C12_text_collision` | propext, Classical.choice, Quot.sound |
| `Cmmc.Label.C12_text_distinct_partial` | propext, Classical.choice, Quot.sound |
| `Cmmc.Arena.C13_live_regions` | propext, Classical.choice, Quot.sound |
| `Cmmc.Arena.C13_dealloc_defined` | propext, Classical.choice, Quot.sound |
| `Cmmc.Arena.C13_destroy_frees_all` | propext, Classical.choice, Quot.sound |
| `Cmmc.IList.C14_list_refines_sequence` | propext, Classical.choice, Quot.sound |
| `Cmmc.MulConst.C15_expand_correct` | propext, Classical.choice, Quot.sound |
| `Cmmc.MulConst.C15_single` | propext, Classical.choice, Quot.sound |
| `Cmmc.MulConst.C15_search_defined` | propext, Classical.choice, Quot.sound |
| `Cmmc.MulConst.C15_pass_defined` | propext, Classical.choice, Quot.sound |
| `Cmmc.MulConst.C16_cost_bound` | propext, Classical.choice, Quot.sound |
| `Cmmc.MulConst.C16_slack_witness` | propext, Classical.choice, Quot.sound |
| `Cmmc.Layout.C17_struct_fields` | propext, Classical.choice, Quot.sound |
| `Cmmc.Layout.C17_subobjects` | propext, Classical.choice, Quot.sound |
| `Cmmc.Layout.C17_subobjects_aligned` | propext, Classical.choice, Quot.sound |
| `Cmmc.Layout.C17_scalarCount` | propext, Quot.sound |
| `Cmmc.Layout.C33_gep_in_bounds` | propext, Classical.choice, Quot.sound |
| `Cmmc.Layout.C33_gep_disjoint` | propext, Classical.choice, Quot.sound |
| `Cmmc.Layout.C33_gep_aligned_partial` | propext, Classical.choice, Quot.sound |
| `Cmmc.Layout.C33_gep_misaligned_witness` | propext |
| `Cmmc.Frame.C18_slots` | propext, Classical.choice, Quot.sound |
| `Cmmc.Frame.C18_defined` | propext, Classical.choice, Quot.sound |
| `Cmmc.Frame.C18_overaligned_local_fails` | propext, Quot.sound |
| `Cmmc.Prologue.C34_callee_saved_preserved` | propext, Classical.choice, Quot.sound |
| `Cmmc.Prologue.C35_unused_spills_removable` | propext, Classical.choice, Quot.sound |
| `Cmmc.ParFor.C19_partition` | propext, Classical.choice, Quot.sound |
| `Cmmc.ParFor.C19_defined` | propext, Classical.choice, Quot.sound |
| `Cmmc.ParFor.C19_overflow_witness` | propext |
| `Cmmc.Futex.C20_join` | propext, Classical.choice, Quot.sound |
| `Cmmc.Futex.C20_no_deadlock` | propext, Quot.sound |
| `Cmmc.Futex.C20_terminates` | propext, Classical.choice, Quot.sound |
| `Cmmc.Futex.C20_assumptions_met` | propext, Classical.choice, Quot.sound |
| `Cmmc.Tuner.C21_tuner` | propext, Classical.choice, Quot.sound |
| `Cmmc.Cache.C22_memo_correct_partial` | propext, Quot.sound |
| `Cmmc.Cache.C22_key_collision` | propext, Quot.sound |
| `Cmmc.Cache.C22_key_collision_witness` | propext, Quot.sound |
| `Cmmc.Cache.C22_nested_rekey_witness` | propext, Quot.sound |
| `Cmmc.Cache.fib_safe` | propext, Classical.choice, Quot.sound |
| `Cmmc.ParFor.C23_triangular_rem` | propext, Classical.choice, Quot.sound |
| `Cmmc.IR.C24_fold_bin` | propext, Classical.choice, Quot.sound |
| `Cmmc.IR.C24_fold_unary` | propext, Classical.choice, Quot.sound |
| `Cmmc.IR.C24_fold_cmp` | propext, Classical.choice, Quot.sound |
| `Cmmc.IR.C24_fold_cast` | propext, Classical.choice, Quot.sound |
| `Cmmc.IR.C25_zero_extended` | propext, Classical.choice, Quot.sound |
| `Cmmc.IR.C25_sign_extended` | propext, Classical.choice, Quot.sound |
| `Cmmc.IR.C25_get` | propext, Classical.choice, Quot.sound |
| `Cmmc.IR.C25_round_trip` | propext, Classical.choice, Quot.sound |
| `Cmmc.IR.C25_equal_iff` | propext, Classical.choice, Quot.sound |
| `Cmmc.IR.C36_icmp` | propext, Classical.choice, Quot.sound |
| `Cmmc.IR.C36_fcmp` | none |
| `Cmmc.IR.C36_fold_fcmp` | none |
| `Cmmc.IR.C36_fold_fcmp_total` | propext |
| `Cmmc.IR.C26_wrapping` | propext, Classical.choice, Quot.sound |
| `Cmmc.IR.C26_contexts` | propext, Classical.choice, Quot.sound |
| `Cmmc.IR.C26_no_overflow` | propext, Classical.choice, Quot.sound |
| `Cmmc.IR.C26_no_overflow_contexts_partial` | propext, Classical.choice, Quot.sound |
| `Cmmc.IR.C26_bad_div_div` | propext, Quot.sound |
| `Cmmc.IR.C26_bad_neg_cmp` | propext, Quot.sound |
| `Cmmc.IR.C26_bad_rem_chain` | propext, Quot.sound |
| `Cmmc.IR.C26_bad_ashr` | propext, Quot.sound |
| `Cmmc.IR.C26_bad_alternate` | propext, Quot.sound |
| `Cmmc.IR.C26_bad_bounds8` | propext, Quot.sound |
| `Cmmc.IR.C26_bad_div_eq` | propext, Quot.sound |
| `Cmmc.IR.C26_bad_sle` | propext, Quot.sound |
| `Cmmc.IR.C26_bad_sge` | propext, Quot.sound |
| `Cmmc.IR.C26_bad_merge_ge` | propext, Quot.sound |
| `Cmmc.IR.C26_bad_merge_le` | propext, Quot.sound |
| `Cmmc.Phi.C27_parallel_copy` | propext, Classical.choice, Quot.sound |
| `Cmmc.Dom.C29_dominate` | propext, Classical.choice, Quot.sound |
| `Cmmc.Dom.C29_lca` | propext, Classical.choice, Quot.sound |
| `Cmmc.Dom.C29_blocks_order` | propext, Classical.choice, Quot.sound |
| `Cmmc.Dom.C30_immediate_dominators` | propext, Classical.choice, Quot.sound |
| `Cmmc.SSA.C31_noSideEffectEliminate` | propext, Classical.choice, Quot.sound |
| `Cmmc.SSA.C37_simplifyBranch` | propext, Classical.choice, Quot.sound |
| `Cmmc.SSA.C37_mergeBranch` | propext, Classical.choice, Quot.sound |
| `Cmmc.SSA.C37_simplifyPartialUnreachable` | propext, Quot.sound |
| `Cmmc.SSA.C32_cfg` | propext, Classical.choice, Quot.sound |
| `Cmmc.SSA.C38_verify_iff` | propext, Classical.choice, Quot.sound |
| `Cmmc.SSA.C38_verify_sound` | propext, Classical.choice, Quot.sound |
| `Cmmc.SSA.Ex.C38_dead_operand_accepted` | propext, Quot.sound |
| `Cmmc.SSA.C39_simpleCSE` | propext, Classical.choice, Quot.sound |
| `Cmmc.SSA.C40_phiEliminate` | propext, Classical.choice, Quot.sound |
| `Cmmc.SSA.C41_gvn` | propext, Classical.choice, Quot.sound |
| `Cmmc.Mir.C42_live_intervals` | propext, Classical.choice, Quot.sound |
| `Cmmc.Mir.Ex.C44_hidden_use_witness` | propext, Classical.choice, Quot.sound |
| `Cmmc.Mir.C43_colouring` | propext, Classical.choice, Quot.sound |
| `Cmmc.Mir.C44_allocation_preserves` | propext, Classical.choice, Quot.sound |
| `Cmmc.Mir.C45_copies_preserve` | propext, Classical.choice, Quot.sound |
| `Cmmc.Mir.C46_stack_loads_preserve` | propext, Classical.choice, Quot.sound |
| `Cmmc.Mir.C47_machine_cse` | propext, Classical.choice, Quot.sound |
| `Cmmc.Mir.C47_dead_inst_partial` | propext, Classical.choice, Quot.sound |
| `Cmmc.Mir.C47_constant_cse_partial` | propext, Classical.choice, Quot.sound |
| `Cmmc.Mir.PeepEx.deadInstElimination_multi_witness` | propext, Classical.choice, Quot.sound |
| `Cmmc.Mir.PeepEx.machineConstantCSE_overwrite_witness` | propext, Classical.choice, Quot.sound |
| `Cmmc.Mir.C48_unused_preserve` | propext, Classical.choice, Quot.sound |
| `Cmmc.Mir.C49_constants_preserve` | propext, Classical.choice, Quot.sound |
| `Cmmc.Mir.C50_schedule_preserves` | propext, Classical.choice, Quot.sound |
| `Cmmc.Mir.C50_schedule_no_deadlock` | propext, Classical.choice, Quot.sound |
| `Cmmc.Mir.SchedEx.same` | propext, Classical.choice, Quot.sound |
| `Cmmc.Mir.C51_each_pass` | propext, Classical.choice, Quot.sound |
| `Cmmc.Mir.C51_simplifyCFG` | propext, Classical.choice, Quot.sound |
| `Cmmc.Mir.C51_simplifyCFGUnique` | propext, Classical.choice, Quot.sound |
| `Cmmc.Mir.peephole_then_simplify` | propext, Classical.choice, Quot.sound |
| `Cmmc.Mir.CfgEx.f1_same` | propext, Classical.choice, Quot.sound |
| `Cmmc.Mir.CfgEx.self_loop_hangs` | propext, Quot.sound |
| `Cmmc.Mir.C52_tailDuplication` | propext, Classical.choice, Quot.sound |
| `Cmmc.Mir.C52_blockLayout` | propext, Classical.choice, Quot.sound |
| `Cmmc.Mir.CfgEx.f3_same` | propext, Classical.choice, Quot.sound |
| `Cmmc.Mir.CfgEx.f3_layout_same` | propext, Classical.choice, Quot.sound |
| `Cmmc.Mir.C53_identicalCodeFolding` | propext, Classical.choice, Quot.sound |
| `Cmmc.Mir.CfgEx.f4_same` | propext, Classical.choice, Quot.sound |
| `Cmmc.Mir.CfgEx.f5_differs` | propext, Quot.sound |
| `Cmmc.Isel.C54_riscv` | propext, Classical.choice, Quot.sound |
| `Cmmc.Isel.C54_arm` | propext, Classical.choice, Quot.sound |
| `Cmmc.Isel.C54_pow2` | propext, Classical.choice, Quot.sound |
| `Cmmc.Isel.C54_shl` | propext, Classical.choice, Quot.sound |
| `Cmmc.Isel.rv_div3_not_sign_extended` | propext, Quot.sound |
| `Cmmc.Isel.div_shl31_wrong` | propext, Quot.sound |
| `Cmmc.Isel.isel_value` | propext, Classical.choice, Quot.sound |
| `Cmmc.Isel.isel_branch` | propext, Classical.choice, Quot.sound |
| `Cmmc.Isel.isel_complete` | propext, Quot.sound |
| `Cmmc.Isel.exTm_steps` | propext, Quot.sound |
| `Cmmc.Isel.shadd_i32_exact` | propext, Classical.choice, Quot.sound |
| `Cmmc.Isel.shadd_i32_wrong` | propext, Quot.sound |
| `Cmmc.Isel.andn_i64_wrong` | propext, Quot.sound |
| `Cmmc.Isel.xnor_bool_wrong` | propext, Quot.sound |
| `Cmmc.Isel.srlw0_wrong` | propext, Quot.sound |
| `Cmmc.Isel.shiftMask_wrong` | propext, Quot.sound |
| `Cmmc.Isel.selInv_wrong` | propext, Quot.sound |
| `Cmmc.Isel.slt_bool_wrong` | propext, Quot.sound |
| `Cmmc.Isel.sext_bool_wrong` | propext, Quot.sound |
| `Cmmc.Isel.branch_gtm1_wrong` | propext, Quot.sound |
| `Cmmc.Isel.loadImm_ok` | propext, Classical.choice, Quot.sound |
| `Cmmc.Isel.emitImm_ok` | propext, Classical.choice, Quot.sound |
| `Cmmc.Isel.expandSelect_ok` | propext, Classical.choice, Quot.sound |
| `Cmmc.Isel.expandArith_ok` | propext, Classical.choice, Quot.sound |
| `Cmmc.Isel.select_dst_compared` | propext, Quot.sound |
| `Cmmc.Rvp.simplifyOpWithZero_run` | propext, Classical.choice, Quot.sound |
| `Cmmc.Rvp.removeSExtW_run` | propext, Classical.choice, Quot.sound |
| `Cmmc.Rvp.largeImmMaterialize_run` | propext, Classical.choice, Quot.sound |
| `Cmmc.Rvp.largeImmMaterialize_enc` | propext, Classical.choice, Quot.sound |
| `Cmmc.Rvp.removeSExtW_srl32` | propext, Quot.sound |
| `Cmmc.Rvp.largeImm_negative` | propext, Quot.sound |
| `Cmmc.Rvp.largeImm_rewritten` | propext, Quot.sound |
| `Cmmc.Rvp.removeDeadBranch_run` | propext, Quot.sound |
| `Cmmc.Rvp.branch2jump_runs` | propext, Classical.choice, Quot.sound |
| `Cmmc.Rvp.branch2jump_middle` | propext, Quot.sound |
| `Cmmc.Rvp.relaxWInst_runs` | propext, Classical.choice, Quot.sound |
| `Cmmc.Rvp.relaxWInst_address` | propext, Quot.sound |
| `Cmmc.Rvp.earlyFoldStore_run` | propext, Classical.choice, Quot.sound |
| `Cmmc.Rvp.earlyFoldLoad_run` | propext, Classical.choice, Quot.sound |
| `Cmmc.Rvp.foldStoreZero_run` | propext, Quot.sound |
| `Cmmc.Rvp.earlyFoldStore_runs` | propext, Classical.choice, Quot.sound |
| `Cmmc.Rvp.earlyFoldLoad_runs` | propext, Classical.choice, Quot.sound |
| `Cmmc.Rvp.foldStoreZero_far` | propext, Quot.sound |
| `Cmmc.Rvp.earlyFoldStore_clobber` | propext, Quot.sound |
| `Cmmc.Rvp.earlyFoldLoad_clobber` | propext, Quot.sound |
| `Cmmc.Fe.C61_function` | propext, Classical.choice, Quot.sound |
| `Cmmc.Fe.source_det` | propext, Quot.sound |
| `Cmmc.Fe.source_total` | propext, Classical.choice, Quot.sound |
| `Cmmc.Fe.Ex.target_runs` | propext, Classical.choice, Quot.sound |
| `Cmmc.Fe.Ex.h_diverges` | propext, Quot.sound |
| `Cmmc.Fe.C62_program` | propext, Classical.choice, Quot.sound |
| `Cmmc.Fe.args_fit` | propext, Classical.choice, Quot.sound |
| `Cmmc.Fe.Ex.prog_target` | propext, Classical.choice, Quot.sound |
| `Cmmc.SSA.C63_blockEliminate` | propext, Classical.choice, Quot.sound |
| `Cmmc.SSA.C63_any_code` | propext, Classical.choice, Quot.sound |
| `Cmmc.SSA.Ex.half_eliminated` | propext, Quot.sound |
| `Cmmc.SSA.Ex.mixed_rejected` | propext, Quot.sound |
| `Cmmc.Fe.C64_emitted_ssa` | propext, Classical.choice, Quot.sound |
| `Cmmc.Fe.Ex.f_verified` | propext, Quot.sound |
| `Cmmc.Fe.Ex.k_rejected` | propext, Quot.sound |
| `Cmmc.Fe.Ex.k_eliminated` | propext, Quot.sound |
| `Cmmc.Fe.C65_optimised` | propext, Classical.choice, Quot.sound |
| `Cmmc.Fe.Ex.f_optimised` | propext, Classical.choice, Quot.sound |
| `Cmmc.SSA.C66_noReturnCallEliminate` | propext, Classical.choice, Quot.sound |
| `Cmmc.SSA.C66_infiniteEliminate` | propext, Classical.choice, Quot.sound |
| `Cmmc.SSA.C66_unreachableEliminate` | propext, Quot.sound |
| `Cmmc.SSA.C66_group` | propext, Classical.choice, Quot.sound |
| `Cmmc.SSA.Ex.exit_lost` | propext, Quot.sound |
| `Cmmc.SSA.Ex.spin_diverges` | propext, Quot.sound |
| `Cmmc.SSA.C67_scalarMem2Reg` | propext, Classical.choice, Quot.sound |
| `Cmmc.SSA.C67_no_loads` | propext, Classical.choice, Quot.sound |
| `Cmmc.SSA.domBlocks_order` | propext, Classical.choice, Quot.sound |
| `Cmmc.SSA.promotable_of_uses` | propext, Quot.sound |
| `Cmmc.Fe.Ex.pw_promoted` | propext, Quot.sound |
| `Cmmc.Fe.Ex.pw_hyps` | propext, Classical.choice, Quot.sound |
| `Cmmc.Fe.C68_promoted` | propext, Classical.choice, Quot.sound |
| `Cmmc.Fe.Ex.f_runs_promoted` | propext, Classical.choice, Quot.sound |
| `Cmmc.SSA.C69_blockMerge` | propext, Classical.choice, Quot.sound |
| `Cmmc.SSA.Ex.chain_wf` | propext, Classical.choice, Quot.sound |
| `Cmmc.SSA.Ex.chain_merged` | propext, Quot.sound |
| `Cmmc.SSA.Ex.chain_same` | propext, Classical.choice, Quot.sound |
| `Cmmc.SSA.C70_combineBranch` | propext, Classical.choice, Quot.sound |
| `Cmmc.SSA.Ex.hops_wf` | propext, Classical.choice, Quot.sound |
| `Cmmc.SSA.Ex.hops_combined` | propext, Quot.sound |
| `Cmmc.SSA.Ex.hops_same` | propext, Classical.choice, Quot.sound |
| `Cmmc.SSA.C71_forwardBranch_partial` | propext, Classical.choice, Quot.sound |
| `Cmmc.SSA.Ex.C71_forwardBranch_wrong` | propext, Classical.choice, Quot.sound |
| `Cmmc.SSA.Ex.andAnd_forwarded` | propext |
| `Cmmc.SSA.Ex.andAnd_same` | propext, Classical.choice, Quot.sound |
| `Cmmc.SSA.C72_inlining` | propext, Classical.choice, Quot.sound |
| `Cmmc.SSA.inline_refines` | propext, Classical.choice, Quot.sound |
| `Cmmc.SSA.inline_liveWf` | propext, Classical.choice, Quot.sound |
| `Cmmc.SSA.inline_program` | propext, Classical.choice, Quot.sound |
| `Cmmc.SSA.Ex.soft_ok` | propext, Classical.choice, Quot.sound |
| `Cmmc.SSA.Ex.soft_inlined` | propext, Quot.sound |
| `Cmmc.SSA.Ex.soft_before` | propext, Classical.choice, Quot.sound |
| `Cmmc.SSA.Ex.soft_after` | propext, Classical.choice, Quot.sound |
| `Cmmc.SSA.C73_unifyReturn` | propext, Classical.choice, Quot.sound |
| `Cmmc.SSA.Ex.threeRets_wf` | propext, Classical.choice, Quot.sound |
| `Cmmc.SSA.Ex.threeRets_unified` | propext |
| `Cmmc.SSA.Ex.threeRets_same` | propext, Classical.choice, Quot.sound |
| `Cmmc.SSA.C74_codeSink` | propext, Classical.choice, Quot.sound |
| `Cmmc.SSA.Ex.sinkable_sunk` | propext, Quot.sound |
| `Cmmc.SSA.Ex.sinkable_same` | propext, Classical.choice, Quot.sound |
| `Cmmc.SSA.Ex.sink_into_entry` | propext, Quot.sound |
| `Cmmc.SSA.Ex.sink_entry_wrong` | propext, Quot.sound |
| `Cmmc.SSA.C75_codeMove` | propext, Classical.choice, Quot.sound |
| `Cmmc.SSA.Ex.invariant_wf` | propext, Classical.choice, Quot.sound |
| `Cmmc.SSA.Ex.invariant_moved` | propext, Quot.sound |
| `Cmmc.SSA.Ex.invariant_same` | propext, Classical.choice, Quot.sound |
| `Cmmc.SSA.C76_blockSort` | propext, Classical.choice, Quot.sound |
| `Cmmc.SSA.Ex.zigzag_wf` | propext, Classical.choice, Quot.sound |
| `Cmmc.SSA.Ex.zigzag_weights` | none |
| `Cmmc.SSA.Ex.zigzag_sorted` | propext, Classical.choice, Quot.sound |
| `Cmmc.SSA.C77_tailCallEliminate` | propext, Classical.choice, Quot.sound |
| `Cmmc.SSA.C78_instReorder` | propext, Classical.choice, Quot.sound |
| `Cmmc.SSA.reorderNodes_ok` | propext, Classical.choice, Quot.sound |
| `Cmmc.SSA.reorder_shape` | propext, Classical.choice, Quot.sound |
| `Cmmc.SSA.reorder_phis` | propext, Classical.choice, Quot.sound |
| `Cmmc.SSA.reorder_resched` | propext, Classical.choice, Quot.sound |
| `Cmmc.SSA.Ex.exitDiv_wrong` | propext, Quot.sound |
| `Cmmc.SSA.C79_phiMerge` | propext, Classical.choice, Quot.sound |
| `Cmmc.SSA.Ex.twoMerges_merged` | propext, Quot.sound |
| `Cmmc.SSA.Ex.twoMerges_same` | propext, Classical.choice, Quot.sound |
| `Cmmc.SSA.Ex.usedTwice_kept` | propext, Quot.sound |
| `Cmmc.SSA.C80_branch2Select` | propext, Classical.choice, Quot.sound |
| `Cmmc.SSA.instOk_runs` | propext |
| `Cmmc.SSA.Ex.guarded_selected` | propext, Quot.sound |
| `Cmmc.SSA.Ex.guarded_operands` | propext, Quot.sound |
| `Cmmc.SSA.Ex.guarded_same` | propext, Classical.choice, Quot.sound |
| `Cmmc.SSA.Ex.unguarded_kept` | propext, Quot.sound |
| `Cmmc.SSA.C81_conditionalPropagation` | propext, Classical.choice, Quot.sound |
| `Cmmc.SSA.condSets_spec` | propext, Classical.choice, Quot.sound |
| `Cmmc.SSA.CondSound.settled` | propext, Quot.sound |
| `Cmmc.SSA.Ex.known_result` | propext, Quot.sound |
| `Cmmc.SSA.Ex.known_same` | propext, Classical.choice, Quot.sound |
| `Cmmc.SSA.C82_branch2Switch_partial` | propext, Classical.choice, Quot.sound |
| `Cmmc.SSA.SwStep.refines` | propext, Classical.choice, Quot.sound |
| `Cmmc.SSA.Ex.swChain_result` | propext, Quot.sound |
| `Cmmc.SSA.Ex.swChain_phis` | propext, Quot.sound |
| `Cmmc.SSA.Ex.swChain_same` | propext, Classical.choice, Quot.sound |
| `Cmmc.SSA.Ex.C82_linkFree_needed` | propext, Quot.sound |
| `Cmmc.SSA.C83_ipConstantPropagation` | propext, Classical.choice, Quot.sound |
| `Cmmc.SSA.setParam_program` | propext, Classical.choice, Quot.sound |
| `Cmmc.SSA.commonArg_spec` | propext, Quot.sound |
| `Cmmc.SSA.Ex.ipoQ_fn` | propext, Quot.sound |
| `Cmmc.SSA.Ex.ipcp_differ` | propext, Quot.sound |
| `Cmmc.SSA.Ex.ipo_ok` | propext, Classical.choice, Quot.sound |
| `Cmmc.SSA.C84_deadArgEliminate` | propext, Classical.choice, Quot.sound |
| `Cmmc.SSA.dropArgs_program` | propext, Classical.choice, Quot.sound |
| `Cmmc.SSA.dropArgs_ok` | propext, Classical.choice, Quot.sound |
| `Cmmc.SSA.Ex.ipoR_fn` | propext, Quot.sound |
| `Cmmc.SSA.Ex.renumber_front` | propext, Quot.sound |
| `Cmmc.SSA.C85_discardReturnValue` | propext, Classical.choice, Quot.sound |
| `Cmmc.SSA.clearRets_program` | propext, Classical.choice, Quot.sound |
| `Cmmc.SSA.clearRets_ok` | propext, Quot.sound |
| `Cmmc.SSA.Ex.ipoS_fn` | propext, Quot.sound |
| `Cmmc.SSA.Ex.discard_used` | propext, Quot.sound |
| `Cmmc.SSA.Ex.ipo_after` | propext, Classical.choice, Quot.sound |
| `Cmmc.SSA.C86_functionAttrInfer` | propext, Classical.choice, Quot.sound |
| `Cmmc.SSA.tagRounds_ok` | propext, Quot.sound |
| `Cmmc.SSA.noWrite_of` | propext, Classical.choice, Quot.sound |
| `Cmmc.SSA.noEffect_of` | propext, Classical.choice, Quot.sound |
| `Cmmc.SSA.noRead_of` | propext, Classical.choice, Quot.sound |
| `Cmmc.SSA.noReturn_of` | propext, Classical.choice, Quot.sound |
| `Cmmc.SSA.Ex.attrAll_eq` | propext |
| `Cmmc.SSA.Ex.attrF_stateless` | propext, Classical.choice, Quot.sound |
| `Cmmc.SSA.Ex.attrF_call` | propext, Classical.choice, Quot.sound |
| `Cmmc.SSA.Ex.attr_indirect` | propext, Classical.choice, Quot.sound |
| `Cmmc.SSA.C87_storeEliminate_partial` | propext, Classical.choice, Quot.sound |
| `Cmmc.SSA.C87_storeEliminate_pass_partial` | propext, Classical.choice, Quot.sound |
| `Cmmc.SSA.invis_sound` | propext, Quot.sound |
| `Cmmc.SSA.store_run` | propext, Classical.choice, Quot.sound |
| `Cmmc.SSA.LiveWf.eraseInst` | propext, Classical.choice, Quot.sound |
| `Cmmc.SSA.Ex.zF_found` | propext, Quot.sound |
| `Cmmc.SSA.Ex.zF_both` | propext, Classical.choice, Quot.sound |
| `Cmmc.SSA.Ex.zF_call` | propext, Classical.choice, Quot.sound |
| `Cmmc.SSA.Ex.atomic_needed` | propext, Classical.choice, Quot.sound |
| `Cmmc.SSA.C88_scev_partial` | propext, Classical.choice, Quot.sound |
| `Cmmc.SSA.scev_good` | propext, Classical.choice, Quot.sound |
| `Cmmc.SSA.stAt_inv` | propext, Classical.choice, Quot.sound |
| `Cmmc.SSA.poly_mulOps` | propext, Classical.choice, Quot.sound |
| `Cmmc.SSA.foldAdd_flat` | propext, Classical.choice, Quot.sound |
| `Cmmc.SSA.foldMul_flat` | propext, Classical.choice, Quot.sound |
| `Cmmc.SSA.loops_isLoop` | propext, Quot.sound |
| `Cmmc.SSA.Ex.squares_value` | propext, Classical.choice, Quot.sound |
| `Cmmc.SSA.Ex.squares_run` | propext, Classical.choice, Quot.sound |
| `Cmmc.SSA.Ex.div_wrong` | propext, Classical.choice, Quot.sound |
| `Cmmc.SSA.C89_loopStrengthReduction_partial` | propext, Classical.choice, Quot.sound |
| `Cmmc.SSA.expand_ok` | propext, Classical.choice, Quot.sound |
| `Cmmc.SSA.build_ok` | propext, Classical.choice, Quot.sound |
| `Cmmc.SSA.addIV_refines` | propext, Classical.choice, Quot.sound |
| `Cmmc.SSA.addIV_wf` | propext, Classical.choice, Quot.sound |
| `Cmmc.SSA.Ev.replace` | propext, Classical.choice, Quot.sound |
| `Cmmc.SSA.scev_two` | propext, Classical.choice, Quot.sound |
| `Cmmc.SSA.Ex.squares_lsr` | propext, Quot.sound |
| `Cmmc.SSA.Ex.squares_lsr_ok` | propext, Classical.choice, Quot.sound |
| `Cmmc.SSA.Ex.squares_lsr_run` | propext, Classical.choice, Quot.sound |
| `Cmmc.SSA.C90_loopEliminate_partial` | propext, Classical.choice, Quot.sound |
| `Cmmc.SSA.never_refines` | propext, Classical.choice, Quot.sound |
| `Cmmc.SSA.loopAt_once` | propext, Quot.sound |
| `Cmmc.SSA.once_holds` | propext, Quot.sound |
| `Cmmc.SSA.LiveWf.never` | propext, Quot.sound |
| `Cmmc.SSA.Ex.oneTrip_elim` | propext, Quot.sound |
| `Cmmc.SSA.Ex.oneTrip_ok` | propext, Classical.choice, Quot.sound |
| `Cmmc.SSA.Ex.oneTrip_run` | propext, Classical.choice, Quot.sound |
| `Cmmc.SSA.Ex.wraps_wrong` | propext, Quot.sound |
| `Cmmc.SSA.C91_licm_partial` | propext, Classical.choice, Quot.sound |
| `Cmmc.SSA.licmLoop_ok` | propext, Classical.choice, Quot.sound |
| `Cmmc.SSA.PreOk.refines` | propext, Classical.choice, Quot.sound |
| `Cmmc.SSA.PreOk.liveWf` | propext, Classical.choice, Quot.sound |
| `Cmmc.SSA.MoveOk.refines_ahead` | propext, Classical.choice, Quot.sound |
| `Cmmc.SSA.LicmInv.step` | propext, Classical.choice, Quot.sound |
| `Cmmc.SSA.Ex.divs_licm` | propext, Quot.sound |
| `Cmmc.SSA.Ex.divs_ok` | propext, Classical.choice, Quot.sound |
| `Cmmc.SSA.Ex.divs_run` | propext, Classical.choice, Quot.sound |
| `Cmmc.SSA.Ex.exitDiv_not` | propext, Quot.sound |
| `Cmmc.IR.C92_rules` | propext, Classical.choice, Quot.sound |
| `Cmmc.IR.C92_contexts` | propext, Classical.choice, Quot.sound |
| `Cmmc.IR.C92_rem_partial` | propext, Classical.choice, Quot.sound |
| `Cmmc.IR.C92_rem_transfer` | propext, Classical.choice, Quot.sound |
| `Cmmc.IR.C92_mulRem_partial` | propext, Classical.choice, Quot.sound |
| `Cmmc.IR.C92_mulRem_corners` | propext, Classical.choice, Quot.sound |
| `Cmmc.IR.C92_other_widths` | propext, Quot.sound |
| `Cmmc.IR.C92_rem_bad` | propext, Classical.choice, Quot.sound |
| `Cmmc.IR.C92_mulRem_bad` | propext, Classical.choice, Quot.sound |
| `Cmmc.SSA.C93_rangeAnalysis_partial` | propext, Classical.choice, Quot.sound |
| `Cmmc.SSA.RAnalysis.certified` | propext, Classical.choice, Quot.sound |
| `Cmmc.SSA.Certified.visit` | propext, Classical.choice, Quot.sound |
| `Cmmc.SSA.transfer_sound` | propext, Classical.choice, Quot.sound |
| `Cmmc.SSA.belowLow_spec` | propext, Classical.choice, Quot.sound |
| `Cmmc.SSA.low_add` | propext, Quot.sound |
| `Cmmc.SSA.Proper.oneDef` | propext, Quot.sound |
| `Cmmc.SSA.srem_context_bad` | propext |
| `Cmmc.SSA.Ex.rLaws` | propext, Quot.sound |
| `Cmmc.SSA.Ex.count4_analysis` | propext, Quot.sound |
| `Cmmc.SSA.Ex.count4_multiple` | propext, Classical.choice, Quot.sound |
| `Cmmc.SSA.C94_contextualRanges_partial` | propext, Classical.choice, Quot.sound |
| `Cmmc.SSA.CtxCert.visit` | propext, Classical.choice, Quot.sound |
| `Cmmc.SSA.branch_fact` | propext, Classical.choice, Quot.sound |
| `Cmmc.SSA.switch_fact` | propext, Classical.choice, Quot.sound |
| `Cmmc.SSA.CtxCert.fact` | propext, Classical.choice, Quot.sound |
| `Cmmc.SSA.RCmp.factL_ok` | propext, Classical.choice, Quot.sound |
| `Cmmc.SSA.RCmp.factR_ok` | propext, Classical.choice, Quot.sound |
| `Cmmc.SSA.RCmp.inv_holds` | propext, Classical.choice, Quot.sound |
| `Cmmc.SSA.Ex.guard10_analysis` | propext, Classical.choice, Quot.sound |
| `Cmmc.SSA.Ex.guard10_small` | propext, Classical.choice, Quot.sound |
| `Cmmc.SSA.Ex.switch_shared_bad` | propext, Classical.choice, Quot.sound |
| `Cmmc.ValueInSet.C95_valueInSet_partial` | propext, Classical.choice, Quot.sound |
| `Cmmc.ValueInSet.C95_nowrap` | propext, Classical.choice, Quot.sound |
| `Cmmc.ValueInSet.built_eq` | propext, Classical.choice, Quot.sound |
| `Cmmc.ValueInSet.loopVal_eq` | propext, Classical.choice, Quot.sound |
| `Cmmc.ValueInSet.maskOf_bit` | propext, Classical.choice, Quot.sound |
| `Cmmc.ValueInSet.scan_inv` | propext, Quot.sound |
| `Cmmc.ValueInSet.four_right` | propext, Classical.choice, Quot.sound |
| `Cmmc.ValueInSet.inset_wrap_bad` | propext, Quot.sound |
| `Cmmc.ValueInSet.inset_drop_bad` | propext, Quot.sound |
| `Cmmc.Reassoc.C96_reassociate_partial` | propext, Classical.choice, Quot.sound |
| `Cmmc.Reassoc.C96_value_exists` | propext, Quot.sound |
| `Cmmc.Reassoc.rebuilt_agg` | propext, Classical.choice, Quot.sound |
| `Cmmc.Reassoc.ROp.rep_merge` | propext, Classical.choice, Quot.sound |
| `Cmmc.Reassoc.fold_pow` | propext, Classical.choice, Quot.sound |
| `Cmmc.Reassoc.C96_example` | propext, Classical.choice, Quot.sound |
| `Cmmc.Reassoc.reassoc_count_bad` | propext, Classical.choice, Quot.sound |
| `Cmmc.Reassoc.reassoc_null_bad` | propext, Classical.choice, Quot.sound |
| `Cmmc.SSA.C97_pointerAlignment_partial` | propext, Classical.choice, Quot.sound |
| `Cmmc.SSA.AAnalysis.certified` | propext, Classical.choice, Quot.sound |
| `Cmmc.SSA.CertAl.visit` | propext, Classical.choice, Quot.sound |
| `Cmmc.SSA.transferA_sound` | propext, Classical.choice, Quot.sound |
| `Cmmc.SSA.varAlign_dvd` | propext, Classical.choice, Quot.sound |
| `Cmmc.SSA.zeros_dvd` | propext, Classical.choice, Quot.sound |
| `Cmmc.SSA.phiAl_le` | propext, Classical.choice, Quot.sound |
| `Cmmc.SSA.Ex.walk_analysis` | propext |
| `Cmmc.SSA.Ex.walk_aligned` | propext, Classical.choice, Quot.sound |
| `Cmmc.SSA.Ex.walk_run` | propext |
| `Cmmc.SSA.Ex.align_scev_bad` | propext, Quot.sound |
| `Cmmc.SimpleValue.C98_lastValue_partial` | propext, Classical.choice, Quot.sound |
| `Cmmc.SimpleValue.C98_loadReduce_partial` | propext, Classical.choice, Quot.sound |
| `Cmmc.SimpleValue.C98_selfStore_partial` | propext, Classical.choice, Quot.sound |
| `Cmmc.SimpleValue.reduce_dst` | propext, Quot.sound |
| `Cmmc.SimpleValue.next_inv` | propext, Classical.choice, Quot.sound |
| `Cmmc.SimpleValue.extract_ok` | propext |
| `Cmmc.SimpleValue.Ex.facts` | propext, Quot.sound |
| `Cmmc.SimpleValue.Ex.block_runs` | propext, Classical.choice, Quot.sound |
| `Cmmc.SimpleValue.Ex.atomic_bad` | propext, Classical.choice, Quot.sound |
| `Cmmc.PtrBase.C99_pointerBase_partial` | propext, Quot.sound |
| `Cmmc.PtrBase.C99_different_bases` | propext, Quot.sound |
| `Cmmc.PtrBase.bases_agrees` | propext, Quot.sound |
| `Cmmc.PtrBase.Ex.tr_ok` | propext |
| `Cmmc.PtrBase.C100_storeOnly_partial` | propext, Classical.choice, Quot.sound |
| `Cmmc.PtrBase.flow_names` | propext, Classical.choice, Quot.sound |
| `Cmmc.PtrBase.interested_oth` | propext, Classical.choice, Quot.sound |
| `Cmmc.PtrBase.Ex.closed2` | propext, Quot.sound |
| `Cmmc.PtrBase.Ex.agree2` | propext |
| `Cmmc.PtrBase.Ex.flow2` | propext |
| `Cmmc.PtrBase.Ex.store_gep_bad` | propext |
