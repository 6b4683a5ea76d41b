{
 "claims": [
  {
   "property": "C01",
   "status": "proved",
   "theorems": [
    "Cmmc.Range.C01_sync_exact",
    "Cmmc.Range.C01_sync_empty_witness"
   ],
   "note": "exactness for every in-limit range with a member; the witness shows why emptiness is excluded"
  },
  {
   "property": "C02",
   "status": "proved",
   "theorems": [
    "Cmmc.Range.C02_add_sub_mul_sound"
   ],
   "note": ""
  },
  {
   "property": "C03",
   "status": "proved",
   "theorems": [
    "Cmmc.Range.C03_bitwise_sound"
   ],
   "note": ""
  },
  {
   "property": "C04",
   "status": "proved",
   "theorems": [
    "Cmmc.Range.C04_shift_sound"
   ],
   "note": ""
  },
  {
   "property": "C05",
   "status": "proved",
   "theorems": [
    "Cmmc.Range.C05_udiv_urem_sound"
   ],
   "note": ""
  },
  {
   "property": "C06",
   "status": "partial",
   "theorems": [
    "Cmmc.Range.C06_srem_sound",
    "Cmmc.Range.C06_sdiv_sound_partial",
    "Cmmc.Range.C06_sdiv_full_false"
   ],
   "note": "srem fully; sdiv for ranges where the INT_MIN/-1 patch is harmless; the full claim is refuted by a witness (code bug)"
  },
  {
   "property": "C07",
   "status": "partial",
   "theorems": [
    "Cmmc.Range.C07_max_min_neg_sound",
    "Cmmc.Range.C07_abs_sound_partial",
    "Cmmc.Range.C07_abs_release",
    "Cmmc.Range.C07_abs_assert_fails"
   ],
   "note": "smin/smax/neg fully; abs except ranges [INT_MIN, >=0], where debug builds abort (witness)"
  },
  {
   "property": "C08",
   "status": "proved",
   "theorems": [
    "Cmmc.Range.C08_sets"
   ],
   "note": ""
  },
  {
   "property": "C09",
   "status": "partial",
   "theorems": [
    "Cmmc.Range.C09_facts_partial",
    "Cmmc.Range.C09_isEmpty_wrong"
   ],
   "note": "all but isEmpty, which is wrong in the code (witness)"
  },
  {
   "property": "C10",
   "status": "proved",
   "theorems": [
    "Cmmc.SCC.C10_calcSCC_correct"
   ],
   "note": ""
  },
  {
   "property": "C11",
   "status": "proved",
   "theorems": [
    "Cmmc.SCC.C11_reverse_topological"
   ],
   "note": ""
  },
  {
   "property": "C28",
   "status": "proved",
   "theorems": [
    "Cmmc.CallGraph.C28_order_bottom_up",
    "Cmmc.CallGraph.C28_reversed_top_down"
   ],
   "note": "for every enumeration order of the hash sets"
  },
  {
   "property": "C12",
   "status": "partial",
   "theorems": [
    "Cmmc.Label.C12_labels_distinct",
    "Cmmc.Label.C12_text_collision",
    "Cmmc.Label.C12_text_distinct_partial"
   ],
   "note": "labels are always distinct as values; the printed text may collide when a prefix ends in a digit (witness proved), distinct otherwise"
  },
  {
   "property": "C13",
   "status": "proved",
   "theorems": [
    "Cmmc.Arena.C13_live_regions",
    "Cmmc.Arena.C13_dealloc_defined",
    "Cmmc.Arena.C13_destroy_frees_all"
   ],
   "note": "for all histories; contract of aligned_alloc/free assumed"
  },
  {
   "property": "C14",
   "status": "proved",
   "theorems": [
    "Cmmc.IList.C14_list_refines_sequence"
   ],
   "note": "refinement of pointer lists to sequences, any number of lists, any legal history"
  },
  {
   "property": "C15",
   "status": "proved",
   "theorems": [
    "Cmmc.MulConst.C15_expand_correct",
    "Cmmc.MulConst.C15_single",
    "Cmmc.MulConst.C15_search_defined",
    "Cmmc.MulConst.C15_pass_defined"
   ],
   "note": "correct for every constant fitting its type and every memo history; the search is shown defined up to |c| = 2^62 (beyond that the C++ loop shifts 1 by 63: undefined)"
  },
  {
   "property": "C16",
   "status": "proved",
   "theorems": [
    "Cmmc.MulConst.C16_cost_bound",
    "Cmmc.MulConst.C16_slack_witness"
   ],
   "note": "slack of one instruction, shown necessary"
  },
  {
   "property": "C17",
   "status": "proved",
   "theorems": [
    "Cmmc.Layout.C17_struct_fields",
    "Cmmc.Layout.C17_subobjects",
    "Cmmc.Layout.C17_subobjects_aligned",
    "Cmmc.Layout.C17_scalarCount"
   ],
   "note": "size_t overflow not modelled; alignment statement needs power-of-two builtin alignments"
  },
  {
   "property": "C33",
   "status": "partial",
   "theorems": [
    "Cmmc.Layout.C33_gep_in_bounds",
    "Cmmc.Layout.C33_gep_disjoint",
    "Cmmc.Layout.C33_gep_aligned_partial",
    "Cmmc.Layout.C33_gep_misaligned_witness"
   ],
   "note": "in-bounds and disjointness proved; alignment is false in general (witness proved: [2*{i32,i8}]), proved when no crossed element type needs tail padding"
  },
  {
   "property": "C18",
   "status": "proved",
   "theorems": [
    "Cmmc.Frame.C18_slots",
    "Cmmc.Frame.C18_defined",
    "Cmmc.Frame.C18_overaligned_local_fails"
   ],
   "note": "any iteration order of the object map; int32 overflow of frames above 2 GiB not modelled; the debug assert fails exactly for over-aligned objects (witness)"
  },
  {
   "property": "C34",
   "status": "proved",
   "theorems": [
    "Cmmc.Prologue.C34_callee_saved_preserved"
   ],
   "note": "generic (RISC-V/MIPS) version; sp adjustment and ARM push/pop not modelled"
  },
  {
   "property": "C35",
   "status": "proved",
   "theorems": [
    "Cmmc.Prologue.C35_unused_spills_removable"
   ],
   "note": ""
  },
  {
   "property": "C19",
   "status": "proved",
   "theorems": [
    "Cmmc.ParFor.C19_partition",
    "Cmmc.ParFor.C19_defined",
    "Cmmc.ParFor.C19_overflow_witness"
   ],
   "note": "The chunks partition [beg,end) for every thread count when no int32 overflow occurs; C19_defined gives the exact sufficient bound, C19_overflow_witness shows the overflow near INT_MAX."
  },
  {
   "property": "C20",
   "status": "proved",
   "theorems": [
    "Cmmc.Futex.C20_join",
    "Cmmc.Futex.C20_no_deadlock",
    "Cmmc.Futex.C20_terminates",
    "Cmmc.Futex.C20_assumptions_met"
   ],
   "note": "All interleavings of main thread and workers with spurious wakeups; start-up and shutdown are not modelled."
  },
  {
   "property": "C21",
   "status": "proved",
   "theorems": [
    "Cmmc.Tuner.C21_tuner"
   ],
   "note": ""
  },
  {
   "property": "C22",
   "status": "partial",
   "theorems": [
    "Cmmc.Cache.C22_memo_correct_partial",
    "Cmmc.Cache.C22_key_collision",
    "Cmmc.Cache.C22_key_collision_witness",
    "Cmmc.Cache.C22_nested_rekey_witness",
    "Cmmc.Cache.fib_safe"
   ],
   "note": "Correct when keys identify arguments and no nested call shares the outer slot; both conditions are necessary (witness theorems) and are not checked by the pass."
  },
  {
   "property": "C23",
   "status": "proved",
   "theorems": [
    "Cmmc.ParFor.C23_triangular_rem"
   ],
   "note": ""
  },
  {
   "property": "C24",
   "status": "proved",
   "theorems": [
    "Cmmc.IR.C24_fold_bin",
    "Cmmc.IR.C24_fold_unary",
    "Cmmc.IR.C24_fold_cmp",
    "Cmmc.IR.C24_fold_cast"
   ],
   "note": "Integer instructions of width 1..64; floating-point folding is host arithmetic and not modelled."
  },
  {
   "property": "C25",
   "status": "proved",
   "theorems": [
    "Cmmc.IR.C25_zero_extended",
    "Cmmc.IR.C25_sign_extended",
    "Cmmc.IR.C25_get",
    "Cmmc.IR.C25_round_trip",
    "Cmmc.IR.C25_equal_iff"
   ],
   "note": ""
  },
  {
   "property": "C36",
   "status": "proved",
   "theorems": [
    "Cmmc.IR.C36_icmp",
    "Cmmc.IR.C36_fcmp",
    "Cmmc.IR.C36_fold_fcmp",
    "Cmmc.IR.C36_fold_fcmp_total"
   ],
   "note": ""
  },
  {
   "property": "C26",
   "status": "partial",
   "theorems": [
    "Cmmc.IR.C26_wrapping",
    "Cmmc.IR.C26_contexts",
    "Cmmc.IR.C26_no_overflow",
    "Cmmc.IR.C26_no_overflow_contexts_partial",
    "Cmmc.IR.C26_bad_div_div",
    "Cmmc.IR.C26_bad_neg_cmp",
    "Cmmc.IR.C26_bad_rem_chain",
    "Cmmc.IR.C26_bad_ashr",
    "Cmmc.IR.C26_bad_alternate",
    "Cmmc.IR.C26_bad_bounds8",
    "Cmmc.IR.C26_bad_div_eq",
    "Cmmc.IR.C26_bad_sle",
    "Cmmc.IR.C26_bad_sge",
    "Cmmc.IR.C26_bad_merge_ge",
    "Cmmc.IR.C26_bad_merge_le"
   ],
   "note": "Every integer rule of ArithmeticReduce is modelled; the sound ones are proved to refine the original expression in any context and under any iteration, the unsound ones are refuted by concrete witnesses. Missing: iterating the no-signed-overflow rules (they may see compiler-introduced wrapping operations), floating-point rules."
  },
  {
   "property": "C27",
   "status": "proved",
   "theorems": [
    "Cmmc.Phi.C27_parallel_copy"
   ],
   "note": ""
  },
  {
   "property": "C29",
   "status": "proved",
   "theorems": [
    "Cmmc.Dom.C29_dominate",
    "Cmmc.Dom.C29_lca",
    "Cmmc.Dom.C29_blocks_order"
   ],
   "note": "lca for functions of at most 2^21 blocks (size of the jump table)"
  },
  {
   "property": "C30",
   "status": "proved",
   "theorems": [
    "Cmmc.Dom.C30_immediate_dominators"
   ],
   "note": ""
  },
  {
   "property": "C31",
   "status": "proved",
   "theorems": [
    "Cmmc.SSA.C31_noSideEffectEliminate"
   ],
   "note": "loads, allocations and calls marked side-effect free are assumed to leave memory and events alone (PureOps)"
  },
  {
   "property": "C37",
   "status": "proved",
   "theorems": [
    "Cmmc.SSA.C37_simplifyBranch",
    "Cmmc.SSA.C37_mergeBranch",
    "Cmmc.SSA.C37_simplifyPartialUnreachable"
   ],
   "note": ""
  },
  {
   "property": "C32",
   "status": "proved",
   "theorems": [
    "Cmmc.SSA.C32_cfg"
   ],
   "note": ""
  },
  {
   "property": "C38",
   "status": "proved",
   "theorems": [
    "Cmmc.SSA.C38_verify_iff",
    "Cmmc.SSA.C38_verify_sound",
    "Cmmc.SSA.Ex.C38_dead_operand_accepted"
   ],
   "note": "never-stuck needs two conditions verify does not check (no phis in the entry, no phi operands from dead blocks); the second is shown necessary by a witness"
  },
  {
   "property": "C39",
   "status": "proved",
   "theorems": [
    "Cmmc.SSA.C39_simpleCSE"
   ],
   "note": "the hash table lookup is modelled as a search among the equal entries seen so far in the block"
  },
  {
   "property": "C40",
   "status": "proved",
   "theorems": [
    "Cmmc.SSA.C40_phiEliminate"
   ],
   "note": "assumes every block is reachable: in dead code the replacement could break the in-block order (never executed)"
  },
  {
   "property": "C41",
   "status": "proved",
   "theorems": [
    "Cmmc.SSA.C41_gvn"
   ],
   "note": "hypotheses: movable opcodes are deterministic and do not touch memory, and what passes the speculation test cannot trap (false of x / -1, see DESIGN.md); dominator tree of at most 2^21 blocks (jump table)"
  },
  {
   "property": "C42",
   "status": "proved",
   "theorems": [
    "Cmmc.Mir.C42_live_intervals",
    "Cmmc.Mir.Ex.C44_hidden_use_witness"
   ],
   "note": "needs NoHidden: an instruction reading a register that it also writes, without an earlier write in the block, is missed by stage 1 (witness)"
  },
  {
   "property": "C43",
   "status": "proved",
   "theorems": [
    "Cmmc.Mir.C43_colouring"
   ],
   "note": ""
  },
  {
   "property": "C44",
   "status": "proved",
   "theorems": [
    "Cmmc.Mir.C44_allocation_preserves",
    "Cmmc.Mir.Ex.C44_hidden_use_witness"
   ],
   "note": "about the round in which no register is spilled (spill-code insertion is separate); physical registers used as calling conventions do (PhysOk); a virtual register is used with types of one class"
  },
  {
   "property": "C45",
   "status": "proved",
   "theorems": [
    "Cmmc.Mir.C45_copies_preserve"
   ],
   "note": "opcode semantics are arbitrary subject to the instruction flags being true (Flags.Ok)"
  },
  {
   "property": "C46",
   "status": "proved",
   "theorems": [
    "Cmmc.Mir.C46_stack_loads_preserve"
   ],
   "note": "spill slots are modelled as registers only spill code touches (SlotCtx.Ok)"
  },
  {
   "property": "C47",
   "status": "partial",
   "theorems": [
    "Cmmc.Mir.C47_machine_cse",
    "Cmmc.Mir.C47_dead_inst_partial",
    "Cmmc.Mir.C47_constant_cse_partial",
    "Cmmc.Mir.PeepEx.deadInstElimination_multi_witness",
    "Cmmc.Mir.PeepEx.machineConstantCSE_overwrite_witness"
   ],
   "note": "false in general: deadInstElimination misses the second register written by flag-setting instructions; machineConstantCSE does not notice that the register was overwritten (witnesses)"
  },
  {
   "property": "C48",
   "status": "proved",
   "theorems": [
    "Cmmc.Mir.C48_unused_preserve"
   ],
   "note": "implicitly read registers are allocable; after allocation all operands are physical"
  },
  {
   "property": "C49",
   "status": "proved",
   "theorems": [
    "Cmmc.Mir.C49_constants_preserve"
   ],
   "note": ""
  },
  {
   "property": "C50",
   "status": "proved",
   "theorems": [
    "Cmmc.Mir.C50_schedule_preserves",
    "Cmmc.Mir.C50_schedule_no_deadlock",
    "Cmmc.Mir.SchedEx.same"
   ],
   "note": "Model in Mir/Sched.lean; the processor (ScheduleModel/ScheduleClass) is an arbitrary parameter; SchedOk requires calls, returns and block ends to carry the barrier flags."
  },
  {
   "property": "C51",
   "status": "proved",
   "theorems": [
    "Cmmc.Mir.C51_each_pass",
    "Cmmc.Mir.C51_simplifyCFG",
    "Cmmc.Mir.C51_simplifyCFGUnique",
    "Cmmc.Mir.peephole_then_simplify",
    "Cmmc.Mir.CfgEx.f1_same",
    "Cmmc.Mir.CfgEx.self_loop_hangs"
   ],
   "note": "Partial correctness of the driver loop: it does not end on l: goto l (witness). Peephole passes called inside the loop are a sound parameter."
  },
  {
   "property": "C52",
   "status": "proved",
   "theorems": [
    "Cmmc.Mir.C52_tailDuplication",
    "Cmmc.Mir.C52_blockLayout",
    "Cmmc.Mir.CfgEx.f3_same",
    "Cmmc.Mir.CfgEx.f3_layout_same"
   ],
   "note": "Heuristics and placement algorithm are arbitrary parameters."
  },
  {
   "property": "C53",
   "status": "proved",
   "theorems": [
    "Cmmc.Mir.C53_identicalCodeFolding",
    "Cmmc.Mir.CfgEx.f4_same",
    "Cmmc.Mir.CfgEx.f5_differs"
   ],
   "note": "Hash functions are arbitrary with non-zero pointer hashes; f5_differs shows the hypothesis is needed."
  },
  {
   "property": "C54",
   "status": "proved",
   "theorems": [
    "Cmmc.Isel.C54_riscv",
    "Cmmc.Isel.C54_arm",
    "Cmmc.Isel.C54_pow2",
    "Cmmc.Isel.C54_shl",
    "Cmmc.Isel.rv_div3_not_sign_extended",
    "Cmmc.Isel.div_shl31_wrong"
   ],
   "note": "The RISC-V register is sign extended only if the sequence has a shift (witness rv_div3_not_sign_extended); 1 << 31 is excluded (witness div_shl31_wrong). std::abs(INT_MIN) is taken to wrap."
  },
  {
   "property": "C55",
   "status": "proved",
   "theorems": [
    "Cmmc.Isel.isel_value",
    "Cmmc.Isel.isel_branch",
    "Cmmc.Isel.isel_complete",
    "Cmmc.Isel.exTm_steps",
    "Cmmc.Isel.shadd_i32_exact",
    "Cmmc.Isel.shadd_i32_wrong",
    "Cmmc.Isel.andn_i64_wrong",
    "Cmmc.Isel.xnor_bool_wrong",
    "Cmmc.Isel.srlw0_wrong",
    "Cmmc.Isel.shiftMask_wrong",
    "Cmmc.Isel.selInv_wrong",
    "Cmmc.Isel.slt_bool_wrong",
    "Cmmc.Isel.sext_bool_wrong",
    "Cmmc.Isel.branch_gtm1_wrong"
   ],
   "note": "Integer patterns and branches, on trees (sharing and pattern order abstracted). Ten patterns carry an extra condition the code lacks, with a witness each of what goes wrong without it."
  },
  {
   "property": "C56",
   "status": "proved",
   "theorems": [
    "Cmmc.Isel.loadImm_ok",
    "Cmmc.Isel.emitImm_ok",
    "Cmmc.Isel.expandSelect_ok",
    "Cmmc.Isel.expandArith_ok",
    "Cmmc.Isel.select_dst_compared"
   ],
   "note": "The assembler's own expansion of li (LoadImm64Complex) is trusted; int32 overflow of val32 - lo is taken to wrap; select_dst_compared shows that the destination must not be one of the compared registers."
  },
  {
   "property": "C57",
   "status": "proved",
   "theorems": [
    "Cmmc.Rvp.simplifyOpWithZero_run",
    "Cmmc.Rvp.removeSExtW_run",
    "Cmmc.Rvp.largeImmMaterialize_run",
    "Cmmc.Rvp.largeImmMaterialize_enc",
    "Cmmc.Rvp.removeSExtW_srl32",
    "Cmmc.Rvp.largeImm_negative",
    "Cmmc.Rvp.largeImm_rewritten"
   ],
   "note": "The hypotheses the code does not check have witnesses of what goes wrong."
  },
  {
   "property": "C58",
   "status": "proved",
   "theorems": [
    "Cmmc.Rvp.removeDeadBranch_run",
    "Cmmc.Rvp.branch2jump_runs",
    "Cmmc.Rvp.branch2jump_middle"
   ],
   "note": ""
  },
  {
   "property": "C59",
   "status": "proved",
   "theorems": [
    "Cmmc.Rvp.relaxWInst_runs",
    "Cmmc.Rvp.relaxWInst_address"
   ],
   "note": "RelaxOk states what is required of the input; relaxWInst_address shows that the condition on addresses is needed."
  },
  {
   "property": "C60",
   "status": "proved",
   "theorems": [
    "Cmmc.Rvp.earlyFoldStore_run",
    "Cmmc.Rvp.earlyFoldLoad_run",
    "Cmmc.Rvp.foldStoreZero_run",
    "Cmmc.Rvp.earlyFoldStore_runs",
    "Cmmc.Rvp.earlyFoldLoad_runs",
    "Cmmc.Rvp.foldStoreZero_far",
    "Cmmc.Rvp.earlyFoldStore_clobber",
    "Cmmc.Rvp.earlyFoldLoad_clobber"
   ],
   "note": "Blocks and whole functions; the conditions the code does not check have witnesses."
  },
  {
   "property": "C61",
   "status": "proved",
   "theorems": [
    "Cmmc.Fe.C61_function",
    "Cmmc.Fe.source_det",
    "Cmmc.Fe.source_total",
    "Cmmc.Fe.Ex.target_runs",
    "Cmmc.Fe.Ex.h_diverges"
   ],
   "note": "Integer language without pointers, structs, floating point, switch and goto (see DESIGN.md). Declarations directly under if/while/for are excluded (not C)."
  },
  {
   "property": "C62",
   "status": "proved",
   "theorems": [
    "Cmmc.Fe.C62_program",
    "Cmmc.Fe.args_fit",
    "Cmmc.Fe.Ex.prog_target"
   ],
   "note": "Terminating programs; reaching the end of a non-void function counts as undefined."
  },
  {
   "property": "C63",
   "status": "proved",
   "theorems": [
    "Cmmc.SSA.C63_blockEliminate",
    "Cmmc.SSA.C63_any_code",
    "Cmmc.SSA.Ex.half_eliminated",
    "Cmmc.SSA.Ex.mixed_rejected"
   ],
   "note": "mixed_rejected shows why the phis of a block have to name the same predecessors."
  },
  {
   "property": "C64",
   "status": "proved",
   "theorems": [
    "Cmmc.Fe.C64_emitted_ssa",
    "Cmmc.Fe.Ex.f_verified",
    "Cmmc.Fe.Ex.k_rejected",
    "Cmmc.Fe.Ex.k_eliminated"
   ],
   "note": "Same language as C61; the verifier may reject dead code before BlockEliminate (k_rejected)."
  },
  {
   "property": "C65",
   "status": "proved",
   "theorems": [
    "Cmmc.Fe.C65_optimised",
    "Cmmc.Fe.Ex.f_optimised"
   ],
   "note": "Same language as C61; alloca is kept by the modelled NoSideEffectEliminate instance."
  },
  {
   "property": "C66",
   "status": "proved",
   "theorems": [
    "Cmmc.SSA.C66_noReturnCallEliminate",
    "Cmmc.SSA.C66_infiniteEliminate",
    "Cmmc.SSA.C66_unreachableEliminate",
    "Cmmc.SSA.C66_group",
    "Cmmc.SSA.Ex.exit_lost",
    "Cmmc.SSA.Ex.spin_diverges"
   ],
   "note": "exit_lost and spin_diverges show that for the -O3 group nothing more than returning runs can be claimed."
  },
  {
   "property": "C67",
   "status": "proved",
   "theorems": [
    "Cmmc.SSA.C67_scalarMem2Reg",
    "Cmmc.SSA.C67_no_loads",
    "Cmmc.SSA.domBlocks_order",
    "Cmmc.SSA.promotable_of_uses",
    "Cmmc.Fe.Ex.pw_promoted",
    "Cmmc.Fe.Ex.pw_hyps"
   ],
   "note": "Slots are used only as addresses of loads and stores unless an instruction the filter knows takes them off the list (SlotUses); every block is reachable."
  },
  {
   "property": "C68",
   "status": "proved",
   "theorems": [
    "Cmmc.Fe.C68_promoted",
    "Cmmc.Fe.Ex.f_runs_promoted"
   ],
   "note": "Same language as C61."
  },
  {
   "property": "C69",
   "status": "proved",
   "theorems": [
    "Cmmc.SSA.C69_blockMerge",
    "Cmmc.SSA.Ex.chain_wf",
    "Cmmc.SSA.Ex.chain_merged",
    "Cmmc.SSA.Ex.chain_same"
   ],
   "note": ""
  },
  {
   "property": "C70",
   "status": "proved",
   "theorems": [
    "Cmmc.SSA.C70_combineBranch",
    "Cmmc.SSA.Ex.hops_wf",
    "Cmmc.SSA.Ex.hops_combined",
    "Cmmc.SSA.Ex.hops_same"
   ],
   "note": ""
  },
  {
   "property": "C71",
   "status": "partial",
   "theorems": [
    "Cmmc.SSA.C71_forwardBranch_partial",
    "Cmmc.SSA.Ex.C71_forwardBranch_wrong",
    "Cmmc.SSA.Ex.andAnd_forwarded",
    "Cmmc.SSA.Ex.andAnd_same"
   ],
   "note": "The property is false of the code (C71_forwardBranch_wrong): when forwarding the true target makes both targets equal, forwarding the false target removes a phi entry that is still needed. Proved for the pass that compares the targets again in between."
  },
  {
   "property": "C72",
   "status": "proved",
   "theorems": [
    "Cmmc.SSA.C72_inlining",
    "Cmmc.SSA.inline_refines",
    "Cmmc.SSA.inline_liveWf",
    "Cmmc.SSA.inline_program",
    "Cmmc.SSA.Ex.soft_ok",
    "Cmmc.SSA.Ex.soft_inlined",
    "Cmmc.SSA.Ex.soft_before",
    "Cmmc.SSA.Ex.soft_after"
   ],
   "note": "Callees with allocas (hoisted to the caller's entry, Inlining.cpp:90-100) are not modelled. Calls that run for ever are not compared at program level; inline_refines compares endless runs of the caller. Asks that the callee's entry is not a jump target (finding 66)."
  },
  {
   "property": "C73",
   "status": "proved",
   "theorems": [
    "Cmmc.SSA.C73_unifyReturn",
    "Cmmc.SSA.Ex.threeRets_wf",
    "Cmmc.SSA.Ex.threeRets_unified",
    "Cmmc.SSA.Ex.threeRets_same"
   ],
   "note": ""
  },
  {
   "property": "C74",
   "status": "proved",
   "theorems": [
    "Cmmc.SSA.C74_codeSink",
    "Cmmc.SSA.Ex.sinkable_sunk",
    "Cmmc.SSA.Ex.sinkable_same",
    "Cmmc.SSA.Ex.sink_into_entry",
    "Cmmc.SSA.Ex.sink_entry_wrong"
   ],
   "note": "Without the hypothesis on the entry the code breaks the program (sink_entry_wrong). Loads are not moved in the model (isUniform loads not modelled)."
  },
  {
   "property": "C75",
   "status": "proved",
   "theorems": [
    "Cmmc.SSA.C75_codeMove",
    "Cmmc.SSA.Ex.invariant_wf",
    "Cmmc.SSA.Ex.invariant_moved",
    "Cmmc.SSA.Ex.invariant_same"
   ],
   "note": ""
  },
  {
   "property": "C76",
   "status": "proved",
   "theorems": [
    "Cmmc.SSA.C76_blockSort",
    "Cmmc.SSA.Ex.zigzag_wf",
    "Cmmc.SSA.Ex.zigzag_weights",
    "Cmmc.SSA.Ex.zigzag_sorted"
   ],
   "note": ""
  },
  {
   "property": "C77",
   "status": "proved",
   "theorems": [
    "Cmmc.SSA.C77_tailCallEliminate"
   ],
   "note": "one run of the pass on one function. The accumulator opcodes have to be associative and commutative with the identity the code uses on values of their type (TailLang.acc, TailTyped); no stack slots in the function (the pass itself checks the first instruction, allocas come first); calls that never return may lose their output if the entry block calls the function itself, as the code does. Examples: factorial (accumulator), return behind a phi, dropped result, entry call."
  },
  {
   "property": "C78",
   "status": "proved",
   "theorems": [
    "Cmmc.SSA.C78_instReorder",
    "Cmmc.SSA.reorderNodes_ok",
    "Cmmc.SSA.reorder_shape",
    "Cmmc.SSA.reorder_phis",
    "Cmmc.SSA.reorder_resched",
    "Cmmc.SSA.Ex.exitDiv_wrong"
   ],
   "note": "for every choice of the priority queue. The last part (runs that do not return) needs the hypothesis that no instruction fails to come back: exitDiv_wrong moves a division by zero in front of exit. Asks that blocks (dead ones too) do not use their own values before computing them, which the verifier checks."
  },
  {
   "property": "C79",
   "status": "proved",
   "theorems": [
    "Cmmc.SSA.C79_phiMerge",
    "Cmmc.SSA.Ex.twoMerges_merged",
    "Cmmc.SSA.Ex.twoMerges_same",
    "Cmmc.SSA.Ex.usedTwice_kept"
   ],
   "note": "the result is none when incomings().at would throw, which the second part excludes."
  },
  {
   "property": "C80",
   "status": "proved",
   "theorems": [
    "Cmmc.SSA.C80_branch2Select",
    "Cmmc.SSA.instOk_runs",
    "Cmmc.SSA.Ex.guarded_selected",
    "Cmmc.SSA.Ex.guarded_operands",
    "Cmmc.SSA.Ex.guarded_same",
    "Cmmc.SSA.Ex.unguarded_kept"
   ],
   "note": "what the opcodes have to satisfy is B2SLang: opcodes outside the list of the code compute a value whenever they get the right number of operands, loads from globals and from stack slots are defined as long as the slot exists."
  },
  {
   "property": "C81",
   "status": "proved",
   "theorems": [
    "Cmmc.SSA.C81_conditionalPropagation",
    "Cmmc.SSA.condSets_spec",
    "Cmmc.SSA.CondSound.settled",
    "Cmmc.SSA.Ex.known_result",
    "Cmmc.SSA.Ex.known_same"
   ],
   "note": "conditions are i1 values: a defined condition equals one of the two constants (Bools)."
  },
  {
   "property": "C82",
   "status": "partial",
   "theorems": [
    "Cmmc.SSA.C82_branch2Switch_partial",
    "Cmmc.SSA.SwStep.refines",
    "Cmmc.SSA.Ex.swChain_result",
    "Cmmc.SSA.Ex.swChain_phis",
    "Cmmc.SSA.Ex.swChain_same",
    "Cmmc.SSA.Ex.C82_linkFree_needed"
   ],
   "note": "needs LinkFree: a skipped block (one that tests the same value as the block before it and whose values feed only branches) has no phis and only pure instructions. The pass does not check this; C82_linkFree_needed is a function in SSA form whose output it drops, so the full statement is false of the code."
  },
  {
   "property": "C83",
   "status": "proved",
   "theorems": [
    "Cmmc.SSA.C83_ipConstantPropagation",
    "Cmmc.SSA.setParam_program",
    "Cmmc.SSA.commonArg_spec",
    "Cmmc.SSA.Ex.ipoQ_fn",
    "Cmmc.SSA.Ex.ipcp_differ",
    "Cmmc.SSA.Ex.ipo_ok"
   ],
   "note": "about calls that end (Conv.call; no claim about endless runs); locals of a caller are invisible to callees (Conv)."
  },
  {
   "property": "C84",
   "status": "proved",
   "theorems": [
    "Cmmc.SSA.C84_deadArgEliminate",
    "Cmmc.SSA.dropArgs_program",
    "Cmmc.SSA.dropArgs_ok",
    "Cmmc.SSA.Ex.ipoR_fn",
    "Cmmc.SSA.Ex.renumber_front"
   ],
   "note": "about calls that end. Users of a function are taken to be calls: functions whose address is taken are ParallelBody and skipped."
  },
  {
   "property": "C85",
   "status": "proved",
   "theorems": [
    "Cmmc.SSA.C85_discardReturnValue",
    "Cmmc.SSA.clearRets_program",
    "Cmmc.SSA.clearRets_ok",
    "Cmmc.SSA.Ex.ipoS_fn",
    "Cmmc.SSA.Ex.discard_used",
    "Cmmc.SSA.Ex.ipo_after"
   ],
   "note": "about calls that end."
  },
  {
   "property": "C86",
   "status": "proved",
   "theorems": [
    "Cmmc.SSA.C86_functionAttrInfer",
    "Cmmc.SSA.tagRounds_ok",
    "Cmmc.SSA.noWrite_of",
    "Cmmc.SSA.noEffect_of",
    "Cmmc.SSA.noRead_of",
    "Cmmc.SSA.noReturn_of",
    "Cmmc.SSA.Ex.attrAll_eq",
    "Cmmc.SSA.Ex.attrF_stateless",
    "Cmmc.SSA.Ex.attrF_call",
    "Cmmc.SSA.Ex.attr_indirect"
   ],
   "note": "about calls that end; the laws of memory (Spaces) are satisfied by a language with a stack of frames (Ex.aSpaces). attr_indirect: NoMemoryRead would be wrong with calls through pointers."
  },
  {
   "property": "C87",
   "status": "partial",
   "theorems": [
    "Cmmc.SSA.C87_storeEliminate_partial",
    "Cmmc.SSA.C87_storeEliminate_pass_partial",
    "Cmmc.SSA.invis_sound",
    "Cmmc.SSA.store_run",
    "Cmmc.SSA.LiveWf.eraseInst",
    "Cmmc.SSA.Ex.zF_found",
    "Cmmc.SSA.Ex.zF_both",
    "Cmmc.SSA.Ex.zF_call",
    "Cmmc.SSA.Ex.atomic_needed"
   ],
   "note": "for addresses to which the function makes no atomic add: the search takes AtomicAdd to the address for a store, which is wrong (atomic_needed). The analyses are hypotheses about the runs of the function, at each removal. The second half of the pass (self assignment) is not modelled. About calls that end; the laws of memory (Stores) are satisfied by Ex.zStores."
  },
  {
   "property": "C88",
   "status": "partial",
   "theorems": [
    "Cmmc.SSA.C88_scev_partial",
    "Cmmc.SSA.scev_good",
    "Cmmc.SSA.stAt_inv",
    "Cmmc.SSA.poly_mulOps",
    "Cmmc.SSA.foldAdd_flat",
    "Cmmc.SSA.foldMul_flat",
    "Cmmc.SSA.loops_isLoop",
    "Cmmc.SSA.Ex.squares_value",
    "Cmmc.SSA.Ex.squares_run",
    "Cmmc.SSA.Ex.div_wrong"
   ],
   "note": "for functions without sdiv: the rule for sdiv divides initial value and increment, which is wrong for truncating division (Ex.div_wrong: -1/2, 1/2, 3/2 are called {0,+,1}). Recurrences whose operands are recurrences themselves (nested loops) are not covered; no client uses them. intmax_t arithmetic of the analysis is exact in the model."
  },
  {
   "property": "C89",
   "status": "partial",
   "theorems": [
    "Cmmc.SSA.C89_loopStrengthReduction_partial",
    "Cmmc.SSA.expand_ok",
    "Cmmc.SSA.build_ok",
    "Cmmc.SSA.addIV_refines",
    "Cmmc.SSA.addIV_wf",
    "Cmmc.SSA.Ev.replace",
    "Cmmc.SSA.scev_two",
    "Cmmc.SSA.Ex.squares_lsr",
    "Cmmc.SSA.Ex.squares_lsr_ok",
    "Cmmc.SSA.Ex.squares_lsr_run"
   ],
   "note": "for functions without sdiv (for which SCEVAnalysis is wrong, see C88). tryExpandMulAddRecWithLoopInv is not modelled. intmax_t arithmetic of the analysis is exact in the model."
  },
  {
   "property": "C90",
   "status": "partial",
   "theorems": [
    "Cmmc.SSA.C90_loopEliminate_partial",
    "Cmmc.SSA.never_refines",
    "Cmmc.SSA.loopAt_once",
    "Cmmc.SSA.once_holds",
    "Cmmc.SSA.LiveWf.never",
    "Cmmc.SSA.Ex.oneTrip_elim",
    "Cmmc.SSA.Ex.oneTrip_ok",
    "Cmmc.SSA.Ex.oneTrip_run",
    "Cmmc.SSA.Ex.wraps_wrong"
   ],
   "note": "for loops in which initial + step fits into the type: the pass computes the sum with 64 bits and miscompiles a loop that wraps around (Ex.wraps_wrong)."
  },
  {
   "property": "C91",
   "status": "partial",
   "theorems": [
    "Cmmc.SSA.C91_licm_partial",
    "Cmmc.SSA.licmLoop_ok",
    "Cmmc.SSA.PreOk.refines",
    "Cmmc.SSA.PreOk.liveWf",
    "Cmmc.SSA.MoveOk.refines_ahead",
    "Cmmc.SSA.LicmInv.step",
    "Cmmc.SSA.Ex.divs_licm",
    "Cmmc.SSA.Ex.divs_ok",
    "Cmmc.SSA.Ex.divs_run",
    "Cmmc.SSA.Ex.exitDiv_wrong",
    "Cmmc.SSA.Ex.exitDiv_not"
   ],
   "note": "for instructions that cannot fail or have nothing in front of them in the loop that ends the program; without that the pass is wrong (Ex.exitDiv_not). Loads, which the pass moves when the alias analysis separates them from all stores of the loop, are not modelled."
  },
  {
   "property": "C92",
   "status": "partial",
   "theorems": [
    "Cmmc.IR.C92_rules",
    "Cmmc.IR.C92_contexts",
    "Cmmc.IR.C92_rem_partial",
    "Cmmc.IR.C92_rem_transfer",
    "Cmmc.IR.C92_mulRem_partial",
    "Cmmc.IR.C92_mulRem_corners",
    "Cmmc.IR.C92_other_widths",
    "Cmmc.IR.C92_rem_bad",
    "Cmmc.IR.C92_mulRem_bad"
   ],
   "note": "two of the rules are wrong as written (C92_rem_bad, C92_mulRem_bad) and are proved for the cases in which they are right. The answers of the range analysis are hypotheses (its transfer functions are C02-C08; its facts about branches are not modelled)."
  },
  {
   "property": "C93",
   "status": "partial",
   "theorems": [
    "Cmmc.SSA.C93_rangeAnalysis_partial",
    "Cmmc.SSA.RAnalysis.certified",
    "Cmmc.SSA.Certified.visit",
    "Cmmc.SSA.transfer_sound",
    "Cmmc.SSA.belowLow_spec",
    "Cmmc.SSA.low_add",
    "Cmmc.SSA.Proper.oneDef",
    "Cmmc.SSA.srem_context_bad",
    "Cmmc.SSA.Ex.rLaws",
    "Cmmc.SSA.Ex.count4_analysis",
    "Cmmc.SSA.Ex.count4_multiple"
   ],
   "note": "the rules for instructions and phis; facts from branches, switches, selects, remainders (the last is wrong, srem_context_bad), calls, address computations, arguments and SCEV are not modelled. Divisions and absolute values are visited with ranges for which C06 and C07 hold, and no stored range becomes contradictory."
  },
  {
   "property": "C94",
   "status": "partial",
   "theorems": [
    "Cmmc.SSA.C94_contextualRanges_partial",
    "Cmmc.SSA.CtxCert.visit",
    "Cmmc.SSA.branch_fact",
    "Cmmc.SSA.switch_fact",
    "Cmmc.SSA.CtxCert.fact",
    "Cmmc.SSA.RCmp.factL_ok",
    "Cmmc.SSA.RCmp.factR_ok",
    "Cmmc.SSA.RCmp.inv_holds",
    "Cmmc.SSA.Ex.guard10_analysis",
    "Cmmc.SSA.Ex.guard10_small",
    "Cmmc.SSA.Ex.switch_shared_bad"
   ],
   "note": "C93 plus the facts of conditional branches and switches. Switches in which two cases, or a case and the default, share a target are excluded: the code takes the facts of all of them, which is wrong (Ex.switch_shared_bad). Facts of selects, calls, address computations and SCEV are not modelled; divisions and absolute values as in C93."
  },
  {
   "property": "C95",
   "status": "partial",
   "theorems": [
    "Cmmc.ValueInSet.C95_valueInSet_partial",
    "Cmmc.ValueInSet.C95_nowrap",
    "Cmmc.ValueInSet.built_eq",
    "Cmmc.ValueInSet.loopVal_eq",
    "Cmmc.ValueInSet.maskOf_bit",
    "Cmmc.ValueInSet.scan_inv",
    "Cmmc.ValueInSet.four_right",
    "Cmmc.ValueInSet.inset_wrap_bad",
    "Cmmc.ValueInSet.inset_drop_bad"
   ],
   "note": "for conjunctions in which all comparisons are of the same value (others are forgotten by the pass, inset_drop_bad) and values whose difference to the set does not wrap around (inset_wrap_bad); the position of the new code in the block is not modelled."
  },
  {
   "property": "C96",
   "status": "partial",
   "theorems": [
    "Cmmc.Reassoc.C96_reassociate_partial",
    "Cmmc.Reassoc.C96_value_exists",
    "Cmmc.Reassoc.rebuilt_agg",
    "Cmmc.Reassoc.ROp.rep_merge",
    "Cmmc.Reassoc.fold_pow",
    "Cmmc.Reassoc.C96_example",
    "Cmmc.Reassoc.reassoc_count_bad",
    "Cmmc.Reassoc.reassoc_null_bad"
   ],
   "note": "for multiplicities below 2^32: they are uint32_t and wrap around, which makes the pass crash on 32 squarings in a row (reassoc_null_bad) and compute wrong powers (reassoc_count_bad). The position of the new code is not modelled."
  },
  {
   "property": "C97",
   "status": "partial",
   "theorems": [
    "Cmmc.SSA.C97_pointerAlignment_partial",
    "Cmmc.SSA.AAnalysis.certified",
    "Cmmc.SSA.CertAl.visit",
    "Cmmc.SSA.transferA_sound",
    "Cmmc.SSA.varAlign_dvd",
    "Cmmc.SSA.zeros_dvd",
    "Cmmc.SSA.phiAl_le",
    "Cmmc.SSA.Ex.walk_analysis",
    "Cmmc.SSA.Ex.walk_aligned",
    "Cmmc.SSA.Ex.walk_run",
    "Cmmc.SSA.Ex.align_scev_bad"
   ],
   "note": "without the use of SCEVAnalysis for indices, which ignores all coefficients but one (align_scev_bad shows the arithmetic). Alignments of types are assumed of all registers at the start, as in the code; range facts are those of C93."
  },
  {
   "property": "C98",
   "status": "partial",
   "theorems": [
    "Cmmc.SimpleValue.C98_lastValue_partial",
    "Cmmc.SimpleValue.C98_loadReduce_partial",
    "Cmmc.SimpleValue.C98_selfStore_partial",
    "Cmmc.SimpleValue.reduce_dst",
    "Cmmc.SimpleValue.next_inv",
    "Cmmc.SimpleValue.extract_ok",
    "Cmmc.SimpleValue.Ex.facts",
    "Cmmc.SimpleValue.Ex.block_runs",
    "Cmmc.SimpleValue.Ex.atomic_bad"
   ],
   "note": "for blocks without AtomicAdd (or with the fix): as written, a load after an AtomicAdd is replaced by the value before it (atomic_bad, Finding 98); truth of the alias and pointer-base results is a hypothesis; LoadReduce across blocks (runInterBlock) and partially overlapping accesses are not modelled"
  },
  {
   "property": "C99",
   "status": "partial",
   "theorems": [
    "Cmmc.PtrBase.C99_pointerBase_partial",
    "Cmmc.PtrBase.C99_different_bases",
    "Cmmc.PtrBase.bases_agrees",
    "Cmmc.PtrBase.Ex.tr_ok"
   ],
   "note": "the bases of function arguments (interprocedural tracing, unique pointer argument) are a hypothesis; different activations of a recursive function are not told apart"
  },
  {
   "property": "C100",
   "status": "partial",
   "theorems": [
    "Cmmc.PtrBase.C100_storeOnly_partial",
    "Cmmc.PtrBase.flow_names",
    "Cmmc.PtrBase.interested_oth",
    "Cmmc.PtrBase.Ex.closed2",
    "Cmmc.PtrBase.Ex.agree2",
    "Cmmc.PtrBase.Ex.flow2",
    "Cmmc.PtrBase.Ex.store_gep_bad"
   ],
   "note": "for functions that do not store pointers computed by a GEP from the allocation: as written, such a store does not keep the allocation from being taken for store-only (store_gep_bad, Finding 99); that the queue of the base analysis is empty at its end is a hypothesis (Closed)"
  }
 ]
}