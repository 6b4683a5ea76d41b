{"id": "C01", "title": "Range normalisation never loses a value", "statement": "Normalising an i32 range (IntegerRange::sync) only propagates information between its signed, unsigned and known-bit views: a 32-bit value belongs to the range after sync() exactly when it belonged before, bounds stay inside the i32/u32 limits, and no debug assertion fires.", "quantifier": "every IntegerRange object with in-limit bounds that has at least one member, and every 32-bit value", "why_tests_cant": "2^32 values times ~2^190 range states; a unit test samples a handful of ranges", "anchors": ["cmmc/Analysis/IntegerRange.cpp: IntegerRange::sync, bit2Unsigned, unsigned2Bit, signed2Bit, unsigned2Signed, signed2Unsigned"]}
{"id": "C02", "title": "Range arithmetic is a sound abstraction of wrapping i32 arithmetic", "statement": "If x is in range A and y in range B then x+y, x-y and x*y (wrapping 32-bit) are in A+B, A-B and A*B.", "quantifier": "all ranges A, B and all members x, y", "why_tests_cant": "infinite family of range pairs, wrap-around corners", "anchors": ["cmmc/Analysis/IntegerRange.cpp: operator+, operator-, operator*, inferSuffix"]}
{"id": "C03", "title": "Range bitwise operations are sound", "statement": "If x is in A and y in B then x&y, x|y and x^y are in A&B, A|B and A^B.", "quantifier": "all ranges and members", "why_tests_cant": "same", "anchors": ["cmmc/Analysis/IntegerRange.cpp: operator&, operator|, operator^"]}
{"id": "C04", "title": "Range shifts are sound", "statement": "If x is in A, y in B and the shift amount y is in [0,31], then x<<y, x>>>y and x>>y are in A.shl(B), A.lshr(B), A.ashr(B).", "quantifier": "all ranges, members, and in-range shift amounts", "why_tests_cant": "same", "anchors": ["cmmc/Analysis/IntegerRange.cpp: shl, lshr, ashr"]}
{"id": "C05", "title": "Range unsigned division and remainder are sound", "statement": "If x is in A, y in B, y nonzero, then x udiv y and x urem y are in A.udiv(B), A.urem(B).", "quantifier": "all ranges and members with nonzero divisor", "why_tests_cant": "same", "anchors": ["cmmc/Analysis/IntegerRange.cpp: udiv, urem"]}
{"id": "C06", "title": "Range signed division and remainder are sound", "statement": "If x is in A, y in B, y nonzero and not (x = INT_MIN and y = -1), then x sdiv y is in A.sdiv(B) and x srem y in A.srem(B).", "quantifier": "all ranges and members for which the division is defined", "why_tests_cant": "corner is a range with lower bound INT_MIN whose quotient by -1 is patched", "anchors": ["cmmc/Analysis/IntegerRange.cpp: sdiv, srem"]}
{"id": "C07", "title": "Range min/max/abs/neg are sound", "statement": "If x is in A and y in B then smin, smax of x,y are in A.smin(B), A.smax(B); |x| in A.abs() when x is not INT_MIN; -x (wrapping) in A.neg().", "quantifier": "all ranges and members", "why_tests_cant": "same", "anchors": ["cmmc/Analysis/IntegerRange.cpp: smax, smin, abs, neg"]}
{"id": "C08", "title": "Range set operations are sound", "statement": "Every value of A or of B is in A.unionSet(B); every value in both A and B is in A.intersectSet(B); if A.intersectWith(B) is false then A and B share no value.", "quantifier": "all ranges and values", "why_tests_cant": "same", "anchors": ["cmmc/Analysis/IntegerRange.cpp: unionSet, intersectSet, intersectWith"]}
{"id": "C09", "title": "Constants inferred from a range are the only value", "statement": "If A.inferConstant() yields c then every value of A equals c; the range built from a constant contains exactly that constant; the suffix returned by inferSuffix() is shared by every member; isNonNegative/isPositive/isNoSignedOverflow answer truthfully for every member; isEmpty() is true only for ranges without a value.", "quantifier": "all ranges and members", "why_tests_cant": "same", "anchors": ["cmmc/Analysis/IntegerRange.cpp: inferConstant, inferSuffix, IntegerRange(int64_t), isEmpty", "cmmc/Analysis/IntegerRange.hpp: isNonNegative, isPositive, isNoSignedOverflow"]}
{"id": "C10", "title": "calcSCC computes exactly the strongly connected components", "statement": "For every directed graph, calcSCC terminates and gives two nodes the same colour iff each is reachable from the other; colours are 0..count-1 and every colour below count is used.", "quantifier": "all finite directed graphs with in-range edges", "why_tests_cant": "unbounded graph sizes and shapes", "anchors": ["cmmc/Support/Graph.cpp: calcSCC"]}
{"id": "C11", "title": "SCC numbering is reverse topological", "statement": "If v is reachable from u then the colour of v is at most the colour of u.", "quantifier": "all graphs, all node pairs", "why_tests_cant": "same", "anchors": ["cmmc/Support/Graph.cpp: calcSCC"]}
{"id": "C12", "title": "Label allocation never repeats a label", "statement": "Labels returned by one LabelAllocator over any history of requests are pairwise distinct, and each keeps the requested prefix; the printed text of two labels never coincides.", "quantifier": "all request histories", "why_tests_cant": "histories are unbounded; collisions need specific sequences", "anchors": ["cmmc/Support/LabelAllocator.cpp: LabelAllocator::allocate", "cmmc/Support/StringFlyWeight.cpp: String::operator==, withID, withoutID, operator<<"]}
{"id": "C13", "title": "Arena allocations are aligned, disjoint and inside owned blocks", "statement": "Over any sequence of allocate calls each result is aligned as requested, lies inside a block obtained from the system and is disjoint from all previously returned live regions.", "quantifier": "all allocation histories and all system block addresses satisfying the aligned_alloc contract", "why_tests_cant": "unbounded histories", "anchors": ["cmmc/Support/Arena.cpp: Arena::allocate, alloc, Arena::deallocate"]}
{"id": "C14", "title": "IntrusiveList behaves like a sequence", "statement": "insert, erase, pop_front/back, remove_if and clear on the linked representation act as the corresponding operations on an abstract list: forward traversal, backward traversal and size() always agree with the abstract list.", "quantifier": "all operation histories on valid nodes", "why_tests_cant": "unbounded histories and pointer shapes", "anchors": ["cmmc/Support/IntrusiveList.hpp: IntrusiveList"]}
{"id": "C15", "title": "Multiplication by a constant is expanded correctly", "statement": "Whenever expandMulWithConstant replaces a multiply by an immediate, the emitted shift/add/sub/neg sequence computes the same value modulo 2^w for every input, for every cost limit, and whatever earlier queries left in the memo table.", "quantifier": "all constants, operand values, bit widths, cost limits and memo histories", "why_tests_cant": "2^64 constants and a history-dependent memo", "anchors": ["cmmc/CodeGen/MultiplyByConstant.cpp: findMultiplyPlan, findMultiplyPlanOdd, expandMulWithConstantImpl"]}
{"id": "C16", "title": "Multiply expansion respects its cost limit", "statement": "When a multiply is expanded with limit maxCost the number of emitted shift/add/sub instructions (excluding the final sign fix/copy) is at most maxCost plus a fixed slack, so expansion is never unboundedly more expensive than the budget.", "quantifier": "all constants, limits and memo histories", "why_tests_cant": "history dependent", "anchors": ["cmmc/CodeGen/MultiplyByConstant.cpp: ShiftArithNode::cost, findMultiplyPlan"]}
{"id": "C17", "title": "Struct and array layout is well-formed", "statement": "For every type, each struct field offset is a multiple of the field alignment, fields do not overlap, every field ends inside the struct size, the offset query agrees with the size computation, array elements are disjoint and aligned and getScalarCount counts the leaves.", "quantifier": "all (nested) types and data layouts with positive alignments", "why_tests_cant": "unbounded type nesting", "anchors": ["cmmc/IR/Type.cpp: StructType::getSize/getAlignment/getFieldOffset, ArrayType::getSize/getScalarCount, IntegerType::getFixedSize"]}
{"id": "C18", "title": "Stack objects get disjoint aligned slots inside the frame", "statement": "After stack allocation all callee-saved, spill and local objects occupy pairwise disjoint, correctly aligned slots above the outgoing-argument area and inside the frame; the frame size is a multiple of the stack alignment; incoming arguments are addressed above the frame.", "quantifier": "all functions' sets of stack objects", "why_tests_cant": "unbounded object sets", "anchors": ["cmmc/CodeGen/StackAllocation.cpp: allocateStackObjects"]}
{"id": "C19", "title": "Parallel for covers every iteration exactly once", "statement": "cmmcParallelFor(beg,end,f) calls f on sub-ranges that partition [beg,end): every index is executed exactly once whichever thread count is selected.", "quantifier": "all beg < end in int32 whose arithmetic does not overflow, all thread counts chosen by the tuner", "why_tests_cant": "2^64 ranges; overflow near INT_MAX", "anchors": ["cmmc/Runtime/cmmc_sysy_rt.cpp: cmmcParallelFor"]}
{"id": "C20", "title": "Parallel for joins: it returns only after all chunks finished", "statement": "Under every interleaving of the main thread and the workers, when cmmcParallelFor returns every launched chunk has been executed exactly once, no wake-up is lost, and there is always an enabled step until it returns (no deadlock).", "quantifier": "all interleavings of the futex protocol, any number of successive calls", "why_tests_cant": "schedules are unbounded", "anchors": ["cmmc/Runtime/cmmc_sysy_rt.cpp: Futex::wait/post, cmmcWorker, cmmcParallelFor"]}
{"id": "C21", "title": "Thread-count tuner returns a valid entry", "statement": "selectEntry/selectNumberOfThreads never index outside the tables, return an entry labelled with the requested (func,size), keep at most one valid entry per (func,size), and the chosen thread count is 1, 2 or 4.", "quantifier": "all call histories and timings", "why_tests_cant": "unbounded histories, hit-count windows", "anchors": ["cmmc/Runtime/cmmc_sysy_rt.cpp: selectEntry, selectNumberOfThreads"]}
{"id": "C22", "title": "Memoising a pure function does not change its results", "statement": "A stateless recursive function transformed by StatelessCache returns, for every argument, the value the original returns; in particular distinct argument pairs never share a cache line's value.", "quantifier": "all pure recursive functions of up to two i32 arguments and all call histories", "why_tests_cant": "needs colliding keys during nested evaluation", "anchors": ["cmmc/Transforms/Misc/StatelessCache.cpp: StatelessCache::run", "cmmc/Runtime/cmmc_sysy_rt.cpp: cmmcCacheLookup"]}
{"id": "C23", "title": "Triangular-sum remainder helper is exact", "statement": "cmmcAddRec3SRem(x, rem) equals (x*(x-1)/2) srem rem computed on mathematical integers, without overflow, for every x and nonzero rem.", "quantifier": "all int32 x and rem != 0", "why_tests_cant": "2^64 inputs", "anchors": ["cmmc/Runtime/cmmc_sysy_rt.cpp: cmmcAddRec3SRem"]}
{"id": "C24", "title": "Constant folding agrees with run-time arithmetic", "statement": "For every integer instruction with constant operands, the constant produced by ConstantPropagation equals the value the instruction computes at run time (wrapping w-bit arithmetic), for all operations, widths and comparison predicates.", "quantifier": "all integer ops, widths 1/8/16/32/64 and operand constants for which the instruction is defined", "why_tests_cant": "2^128 operand pairs per op", "anchors": ["cmmc/Transforms/Combine/ConstantPropagation.cpp: runOnBlock", "cmmc/IR/ConstantValue.cpp: getSignExtended, getZeroExtended, ConstantInteger::get"]}
{"id": "C25", "title": "ConstantInteger extension and equality are canonical", "statement": "getSignExtended/getZeroExtended of a ConstantInteger depend only on the low w bits, are the signed/unsigned readings of that w-bit value, round-trip through ConstantInteger::get, and isEqual implies equal hash.", "quantifier": "all widths and 64-bit storages", "why_tests_cant": "2^64 storages", "anchors": ["cmmc/IR/ConstantValue.cpp: ConstantInteger"]}
{"id": "C26", "title": "Arithmetic simplification preserves values", "statement": "Every integer rewrite of ArithmeticReduce yields an expression which, whenever the original is defined, is defined and has the same value.", "quantifier": "all expressions matching a rule, all operand values", "why_tests_cant": "each rule ranges over 2^32..2^128 operand values", "anchors": ["cmmc/Transforms/Combine/ArithmeticReduce.cpp: runOnBlock"]}
{"id": "C27", "title": "Phi lowering implements a parallel copy", "statement": "The copy sequence emitted on a CFG edge leaves every phi destination with the value its source had before the branch and leaves all other pre-existing registers unchanged, including for cyclic permutations.", "quantifier": "all lists of (dst,src) phi moves with distinct destinations, all register contents", "why_tests_cant": "unbounded copy graphs", "anchors": ["cmmc/CodeGen/Lowering.cpp: emitBranch"]}
{"id": "C28", "title": "Call-graph order is bottom-up", "statement": "CallGraphSCC lists every function exactly once, and a callee outside the caller's SCC appears before the caller.", "quantifier": "all call graphs", "why_tests_cant": "unbounded graphs", "anchors": ["cmmc/Analysis/CallGraphSCC.cpp: CallGraphSCCAnalysis::run"]}
{"id": "C29", "title": "Dominator-tree queries agree with the tree", "statement": "dominate(a,b) is true iff a is an ancestor of b in the immediate-dominator tree, and lca(a,b) is the deepest common ancestor, for every tree whose depth fits the jump table.", "quantifier": "all trees, all node pairs", "why_tests_cant": "unbounded trees", "anchors": ["cmmc/Analysis/DominateAnalysis.cpp: DominateAnalysisResult::dominate, lca, DominateAnalysis::run (dfs)"]}
{"id": "C30", "title": "Immediate dominators are correct", "statement": "The idom map computed for a CFG is the dominator tree: a dominates b in the result iff every path from the entry to b passes through a.", "quantifier": "all CFGs", "why_tests_cant": "unbounded graphs", "anchors": ["cmmc/Analysis/DominateAnalysis.cpp: DominateAnalysis::run"]}
{"id": "C31", "title": "Dead-instruction elimination keeps everything observable", "statement": "NoSideEffectEliminate keeps every terminator, store, atomic and side-effecting call, keeps every instruction a kept one depends on, and removes everything else, so the observable trace of a straight-line execution is unchanged.", "quantifier": "all functions (use graphs)", "why_tests_cant": "unbounded use graphs", "anchors": ["cmmc/Transforms/DCE/NoSideEffectEliminate.cpp: NoSideEffectEliminate::run"]}
{"id": "C32", "title": "CFG predecessor and successor sets are mutual inverses", "statement": "CFGAnalysis lists s as a successor of b exactly as often as b is a predecessor of s, without duplicates, and exactly for the branch targets.", "quantifier": "all functions", "why_tests_cant": "unbounded CFGs", "anchors": ["cmmc/Analysis/CFGAnalysis.cpp: CFGAnalysis::run"]}
{"id": "C33", "title": "Address computation selects the right sub-object", "statement": "For a getelementptr whose indices (constant or run-time) are in bounds, the byte offset computed is that of the selected sub-object: it lies inside the pointee, accesses through incomparable index paths never overlap, and the address is aligned for the element.", "quantifier": "all nested types, index lists and run-time index values", "why_tests_cant": "unbounded type nesting and indices", "anchors": ["cmmc/IR/Instruction.cpp: GetElementPtrInst::gatherOffsets", "cmmc/IR/Type.cpp"]}
{"id": "C34", "title": "Callee-saved registers survive every call", "statement": "A function with the inserted prologue and epilogue returns from exactly the same initial states as before, with the same memory and results, and on every path to every return each callee-saved register (and the return address in a non-leaf function) has the value it had at entry.", "quantifier": "all functions whose entry block is not a jump target, all register sets in any order, all executions", "why_tests_cant": "unbounded paths through arbitrary CFGs", "anchors": ["cmmc/CodeGen/FrameInfo.cpp: TargetFrameInfo::insertPrologueEpilogue", "cmmc/CodeGen/StackAllocation.cpp: allocateStackObjects"]}
{"id": "C35", "title": "Dropping never-reloaded spill slots is invisible", "statement": "Removing the stores to spill slots that no instruction loads leaves termination, registers, memory and other slots unchanged for every execution, and no instruction still mentions a removed slot.", "quantifier": "all functions, all executions", "why_tests_cant": "unbounded executions", "anchors": ["cmmc/CodeGen/StackAllocation.cpp: removeUnusedSpillStackObjects"]}
{"id": "C36", "title": "Swapping and negating comparisons is exact", "statement": "getReversedOp(c) of (y,x) equals c of (x,y) and getInvertedOp(c) is the negation of c for every integer predicate and operand pair, and the same for every floating-point predicate including unordered (NaN) operands; a folded floating-point comparison has the IEEE result.", "quantifier": "all predicates, all widths, all operands including NaN", "why_tests_cant": "unbounded operand space; the two tables are used by every compare rewrite", "anchors": ["cmmc/IR/Instruction.cpp: getReversedOp, getInvertedOp", "cmmc/Transforms/Combine/ConstantPropagation.cpp: doCompare"]}
{"id": "C37", "title": "Branch simplifications preserve behaviour", "statement": "Turning branches on constants into unconditional ones, branches with two equal targets into unconditional ones, and branches into unreachable blocks into branches to the other side yields a function that returns the same values, leaves the same memory and produces the same events on every run that is not undefined.", "quantifier": "all functions, all opcodes' semantics, all memories and arguments, runs of any length including endless ones", "why_tests_cant": "the executions and control-flow graphs are unbounded", "anchors": ["cmmc/Transforms/ControlFlow/SimplifyBranch.cpp", "cmmc/Transforms/ControlFlow/MergeBranch.cpp", "cmmc/Transforms/ControlFlow/SimplifyPartialUnreachableBranch.cpp", "cmmc/Transforms/Util/BlockUtil.cpp: removePhi"]}
{"id": "C38", "title": "The IR verifier accepts exactly well-formed SSA, and accepted functions never get stuck", "statement": "Function::verify accepts a function iff instructions are unique, branches stay inside, code is in order, phis match the live predecessors and definitions dominate uses; and then no run of the function jumps to a missing block, misses a phi entry, or reads an instruction that has not been executed.", "quantifier": "all functions, all orders of hash containers, all runs of any length", "why_tests_cant": "CFGs and runs are unbounded", "anchors": ["cmmc/IR/Function.cpp: Function::verify", "cmmc/IR/Block.cpp: Block::verify", "cmmc/Analysis/CFGAnalysis.cpp", "cmmc/Analysis/DominateAnalysis.cpp"]}
{"id": "C39", "title": "Local common-subexpression elimination preserves behaviour", "statement": "SimpleCSE (merging equal phis and equal movable instructions within a block) yields a function with the same results, memory and events on every run that is not undefined, and the function it produces is well-formed SSA with the same instructions.", "quantifier": "all well-formed functions, all opcode semantics where movable opcodes are deterministic and memory-free, all runs of any length", "why_tests_cant": "unbounded CFGs and runs", "anchors": ["cmmc/Transforms/Merge/CSE.cpp: SimpleCSE"]}
{"id": "C40", "title": "Eliminating redundant phi cycles preserves behaviour", "statement": "PhiEliminate, which replaces every strongly connected set of phis having a single outside operand by that operand, terminates and yields a well-formed function with the same results, memory and events on every run that is not undefined.", "quantifier": "all well-formed functions with all blocks reachable, all orders of hash containers, all runs", "why_tests_cant": "phi cycles and nesting are unbounded", "anchors": ["cmmc/Transforms/DCE/PhiEliminate.cpp"]}
{"id": "C41", "title": "Global value numbering preserves behaviour", "statement": "GVN (numbering, replacing by the dominating member, hoisting to the lowest common dominator) terminates and yields a well-formed function with the same control-flow graph and the same results, memory and events on every run that is not undefined, for every block-frequency estimate and target.", "quantifier": "all well-formed functions (dominator trees below 2^21 blocks), all container orders, all opcode semantics, all runs", "why_tests_cant": "unbounded CFGs, expressions and runs", "anchors": ["cmmc/Transforms/Merge/GVN.cpp", "cmmc/Transforms/Util/BlockUtil.cpp: isMovableExpr"]}
{"id": "C42", "title": "Live intervals contain every point where a register is live", "statement": "For every machine function, the analysis terminates with the block live-in/live-out sets equal to what some control-flow path reads before writing, each register's interval contains every instruction point at which it is live or written, two intervals are reported to intersect exactly if they share a point, and a use marked as last use is one after which the value is not read again.", "quantifier": "all machine functions with non-empty blocks, all CFGs including loops, all registers", "why_tests_cant": "unbounded CFGs and path lengths", "anchors": ["cmmc/CodeGen/LiveInterval.cpp: calcLiveIntervals", "cmmc/CodeGen/MIRCFGAnalysis.cpp: calcCFG"]}
{"id": "C43", "title": "Graph colouring gives interfering registers different registers", "statement": "Whatever the order in which low-degree registers are removed and whichever allowed register each gets: if the graph is emptied, every register gets one of the allocation list, differing from all its neighbours (the unreachable report is not reached); if not, there is a non-empty set of registers each having at least k neighbours in the set or among physical registers.", "quantifier": "all interference graphs, all heuristics, all allocation lists", "why_tests_cant": "unbounded graphs and heuristic choices", "anchors": ["cmmc/CodeGen/GraphColoringRegisterAllocator.cpp: RegisterInterferenceGraph, graphColoringAllocateImpl"]}
{"id": "C44", "title": "Register allocation preserves the program", "statement": "If the graph-colouring allocation of all register classes succeeds, the rewritten function has only physical registers, and executes the same instructions with the same effects on memory and the same results as before, in both directions, for every meaning of the opcodes.", "quantifier": "all machine functions obeying the calling-convention shape, all opcode semantics, all heuristics, all runs of any length", "why_tests_cant": "unbounded functions and runs", "anchors": ["cmmc/CodeGen/GraphColoringRegisterAllocator.cpp", "cmmc/CodeGen/LiveInterval.cpp", "cmmc/CodeGen/RegisterAllocator.cpp"]}
{"id": "C45", "title": "Copy propagation on machine code preserves the program", "statement": "Removing identity copies, replacing an operand by the register it is known to be a copy of (or by the latest copy), and dropping copies already in effect leave every observable sequence of side effects and every way of leaving the function unchanged, before and after register allocation, for every legality test and zero-register convention of the target.", "quantifier": "all well-typed machine functions, all opcode semantics true to the flags, all initial states, all runs", "why_tests_cant": "unbounded functions, registers and runs; versions must be tracked through calls", "anchors": ["cmmc/CodeGen/Peephole.cpp: removeIdentityCopies, removeIndirectCopy, createIndirectCopy", "cmmc/CodeGen/InstInfo.cpp: matchCopy"]}
{"id": "C46", "title": "Forwarding spill slots to loads preserves the program", "statement": "Replacing a load from a stack slot by a copy from the register last stored to it (while that register is unchanged, also across calls) cannot be observed.", "quantifier": "all well-typed functions whose slots are only accessed by spill loads and stores, all runs", "why_tests_cant": "unbounded instruction sequences", "anchors": ["cmmc/CodeGen/Peephole.cpp: eliminateStackLoads"]}
{"id": "C47", "title": "Redundant computation removal on machine code preserves the program", "statement": "Replacing a machine instruction by a copy of an equal earlier result, deleting an instruction that recomputes what its register holds, and sharing constants cannot be observed.", "quantifier": "all well-typed machine functions, all opcode semantics true to the flags, all runs", "why_tests_cant": "unbounded functions and runs", "anchors": ["cmmc/CodeGen/Peephole.cpp: machineInstCSE, deadInstElimination, machineConstantCSE"]}
{"id": "C48", "title": "Removing unused machine instructions preserves the program", "statement": "Deleting instructions without side effects whose results nothing needed reads (including loops feeding only themselves), and, after register allocation, instructions whose results are overwritten in the block before being read, cannot be observed.", "quantifier": "all well-typed machine functions, all runs", "why_tests_cant": "unbounded data flow through loops; implicit register reads of calls and returns", "anchors": ["cmmc/CodeGen/Peephole.cpp: removeUnusedInsts, removeInvisibleInsts"]}
{"id": "C49", "title": "Propagating and hoisting constants on machine code preserves the program", "statement": "Reading a constant instead of its copy, and moving constant loads to the entry block for any block frequencies and limits, cannot be observed if no virtual register is read before it is written.", "quantifier": "all well-typed machine functions in SSA-like form, all frequencies and limits, all runs", "why_tests_cant": "must hold on every path of any CFG", "anchors": ["cmmc/CodeGen/Peephole.cpp: applySSAPropagation, machineConstantHoist, collectDefCount"]}
{"id": "C50", "title": "Instruction scheduling preserves the program", "statement": "Reordering the instructions of each block after register allocation (enabled on RISC-V and ARM) keeps every instruction exactly once and cannot be seen: registers read, side effects and their order, memory and control flow behave as before. The dependences never block scheduling: on a processor model that accepts ready instructions within 200 cycles every block is scheduled, and on any model scheduling stops.", "quantifier": "all functions whose barriers are flagged as such, all processor models, ranks and visiting orders, all opcode interpretations, register and memory states", "why_tests_cant": "the issue order depends on the processor model and on pointer-valued hash order; every block and every latency table gives another permutation", "anchors": ["cmmc/CodeGen/Scheduler.cpp: topDownScheduling, postRAScheduleBlock, preRAScheduleBlock, postRASchedule", "cmmc/CodeGen/ScheduleModel.hpp: ScheduleState, ScheduleClass"]}
{"id": "C51", "title": "Simplifying machine control flow preserves the program and finishes the job", "statement": "Removing unreachable code, jumps to the next block, unused labels, empty blocks, chains of jumps, branches around jumps and short forward branches cannot be observed, alone or repeated until nothing changes; when the repetition ends every block is reachable, no dead code follows a jump, no branch goes to a block that only jumps, no block ends with a jump to the next.", "quantifier": "all laid-out machine functions with unique labels, any number of rounds, all opcode interpretations consistent with the target's inverse branches, all runs", "why_tests_cant": "any control-flow graph, any layout, any nesting of branches; the passes enable each other", "anchors": ["cmmc/CodeGen/SimplifyCFG.cpp: redirectGoto, removeUnreachableCode, removeUnusedLabels, removeGotoNext, removeEmptyBlocks, conditional2Unconditional, reorderBranch, sfbOpt, simplifyCFG, simplifyCFGWithUniqueTerminator"]}
{"id": "C52", "title": "Duplicating tails and reordering blocks preserves the program", "statement": "Whatever the profitability heuristics select, copying a block into blocks that jump to it, and whatever order of blocks the placement chooses with the entry first, the program behaves as before: blocks that relied on falling through still reach their successor.", "quantifier": "all machine functions whose blocks end with their terminator, all heuristics, all permutations fixing the entry, all runs", "why_tests_cant": "heuristics depend on profile data and on random search; must hold for every layout", "anchors": ["cmmc/CodeGen/TailDuplication.cpp: tailDuplication", "cmmc/CodeGen/BlockLayoutOpt.cpp: optimizeBlockLayout"]}
{"id": "C53", "title": "Folding identical blocks preserves the program", "statement": "Blocks replaced by a jump to an identical block and the redirection of their predecessors cannot be observed, provided pointer hashes are not zero.", "quantifier": "all machine functions whose blocks end with their terminator, all hash functions with non-zero pointer hashes, all runs", "why_tests_cant": "depends on hash collisions and on fall-through positions in any layout", "anchors": ["cmmc/CodeGen/ICF.cpp: isIdentical, identicalCodeFolding"]}
{"id": "C54", "title": "Division and remainder by constants are compiled correctly", "statement": "When a 32-bit signed division or remainder by a constant is replaced by multiplications and shifts, the instruction sequences of the RISC-V and ARM back ends give C's quotient (truncated towards zero) and remainder for every dividend and every divisor other than 0, 1 and -1; the sequences for powers of two and for divisors of the form 1 << s (s < 31) do too. The search for the multiplier always ends.", "quantifier": "all 32-bit dividends, all constant divisors, all shift amounts below 31", "why_tests_cant": "2^64 pairs of dividend and divisor; the boundary cases of the rounding are single dividends that depend on the divisor", "anchors": ["cmmc/CodeGen/ISelInfo.cpp: selectSDiv32ByConstant, isOperandSDiv32ByConstantDivisor, selectSDiv32ByPowerOf2", "cmmc/Target/RISCV/RISCVISelInfo.cpp: buildMul64Imm, buildSRAIW, selectAddImm32", "cmmc/Target/RISCV/RISCV.yml: InstSDiv, InstSRem patterns", "cmmc/Target/ARM/ARMISelInfo.cpp: buildMulHiImm, buildASR, buildIRegShift", "cmmc/Target/ARM/ARM.yml: InstSDiv, InstSRem patterns"]}
{"id": "C55", "title": "RISC-V instruction selection computes the same values and takes the same branches", "statement": "Selecting RISC-V instructions for integer expressions, by any sequence of pattern applications at any places, leaves in every register exactly the value the generic operations define, in the form the type prescribes (sign extended, booleans 0 or 1); conditional branches are taken exactly as before; every immediate fits its instruction; and every supported operation can be selected.", "quantifier": "all typed expression trees of any size and all register contents; all orders in which the patterns are applied; all values of all immediates", "why_tests_cant": "the patterns overlap and enable each other, and depend on operand widths, wrap-around and immediates at the edge of their ranges; 2^64 contents per register", "anchors": ["cmmc/Target/RISCV/RISCV.yml: InstSelection", "cmmc/Target/RISCV/RISCVISelInfo.cpp: legalizeInst, selectAddImm32, selectSFBArith, selectCompare, buildMul64Imm, isNotImm, isNegativeOne, getICmpBranchOpcode", "cmmc/CodeGen/ISelInfo.cpp: runISel, getMaxSignedValue, getMinSignedValue, getZExtMask"]}
{"id": "C56", "title": "RISC-V constants are loaded exactly and selects become the right branches", "statement": "Loading any 64-bit constant leaves exactly that constant in the destination, changes only the destination and fresh registers, and uses only immediates that fit; a select pseudo instruction expanded to a branch and two blocks leaves the selected value (or the conditionally computed one) in its destination and changes nothing else.", "quantifier": "all 64-bit constants, all register contents, all comparisons, all operands with the destination not among the compared registers", "why_tests_cant": "2^64 constants with a different instruction sequence in each of six ranges; the sign corrections at 2048 and 2^31 are single values", "anchors": ["cmmc/Target/RISCV/RISCVISelInfo.cpp: preRALegalizeInst, emitImm, selectOperandNonZeroHigh20Bits", "cmmc/Target/RISCV/RISCV.yml: InstLoadImm patterns", "cmmc/IR/Instruction.hpp: getInvertedOp"]}
{"id": "C57", "title": "RISC-V peepholes on zeros, extensions and constants keep what a block does", "statement": "Simplifying instructions that read the zero register, dropping sign extensions of values that are already sign extended (with no logical shift right by exactly 32 in the block), and computing a large constant from one loaded before (when no register loaded with a constant is written again and no constant is a negative one shifted right) leave every register and the memory exactly as before, whatever the state before, and introduce only immediates that fit.", "quantifier": "all blocks of any length with encodable immediates, all register and memory contents, all environments", "why_tests_cant": "2^64 values per register; the interesting values are at sign and shift boundaries that depend on the constants", "anchors": ["cmmc/Target/RISCV/RISCVScheduleModel.cpp: simplifyOpWithZero, isWProvider, removeSExtW, largeImmMaterialize"]}
{"id": "C58", "title": "RISC-V peepholes on branches keep the control flow", "statement": "Removing a conditional branch that repeats an earlier one whose operands are unchanged, and turning branches that compare zero with zero into jumps or nothing, leave the result of the function unchanged.", "quantifier": "all blocks and functions with distinct labels, all states, both phases (every block ends with its only terminator, or not)", "why_tests_cant": "depends on every intervening write, on fall-through positions and on loops", "anchors": ["cmmc/Target/RISCV/RISCVScheduleModel.cpp: removeDeadBranch, branch2jump"]}
{"id": "C59", "title": "Replacing 32-bit RISC-V instructions by 64-bit ones cannot be observed", "statement": "After 32-bit additions, shifts and sign extensions whose upper halves nobody reads have become 64-bit ones, the function returns from exactly the same states with the same memory and the same physical registers, in whatever order the instructions are visited.", "quantifier": "all functions that write virtual registers before reading them, with no relaxed register used as an address or as the second operand of ADD_UW; all visiting orders; all runs", "why_tests_cant": "the order depends on the hash table; a chain of relaxed instructions through loops is unbounded", "anchors": ["cmmc/Target/RISCV/RISCVScheduleModel.cpp: relaxWInst, isWUser, isWProvider"]}
{"id": "C60", "title": "Merging two word accesses into one double word access cannot be observed", "statement": "Two adjacent 32-bit stores merged into one 64-bit store, two adjacent 32-bit loads merged into one 64-bit load, and two stores of zero merged into one leave the memory and all registers (except new ones) as before, when nothing writes the registers the accesses depend on in between and stack slots matched by their residues are adjacent.", "quantifier": "all blocks and functions of any length, all addresses (including ones that wrap around), all memory contents", "why_tests_cant": "byte-level aliasing for every address and value, every sequence of instructions in between", "anchors": ["cmmc/Target/RISCV/RISCVScheduleModel.cpp: foldStoreZero, earlyFoldStore, earlyFoldLoad"]}
{"id": "C61", "title": "The front end translates functions faithfully", "statement": "For every function of the integer language (integer and array variables, all operators, conversions, short circuits, loops, break/continue/return, calls, globals) that the front end accepts, the generated IR does what C says the function does: same return value, same effects on globals and outside world in the same order, it fails to come back exactly when a call does not come back, it runs for ever if the source does and has then emitted the same events. No claim for source executions with undefined behaviour.", "quantifier": "all accepted functions of any size and nesting, all arguments, all initial states of the world, all behaviours of the called functions, terminating and endless executions", "why_tests_cant": "unboundedly many programs, inputs and loop iterations", "anchors": ["cmmc/Frontend/EmitIR.cpp: FunctionDefinition::emit, *Expr::emit, EmitContext::convertTo, getRValue, calcImplicitTypeConversion, makeBinaryOp, addIdentifier, popScope", "cmmc/IR/IRBuilder.cpp"]}
{"id": "C62", "title": "The front end translates whole programs faithfully", "statement": "If a program made of functions that call each other (recursively or not) and a runtime library terminates without undefined behaviour, then the program made of the generated functions terminates with the same result, the same final state of the world and the same events.", "quantifier": "all programs, all call depths, all library behaviours that leave constants alone", "why_tests_cant": "unboundedly many programs and recursion depths", "anchors": ["cmmc/Frontend/EmitIR.cpp: FunctionCallExpr::emit, FunctionDefinition::emit, GlobalVarDefinition::emit"]}
{"id": "C63", "title": "Removing unreachable blocks preserves behaviour and yields code the verifier accepts", "statement": "BlockEliminate terminates, keeps exactly the blocks reachable from the entry in their order, and the resulting function has the same results, memory and events on every run; if the reachable part is in SSA form the result is well-formed SSA accepted by the verifier.", "quantifier": "all functions whose block list is sane, whatever the dead code looks like, all opcode semantics, all runs of any length", "why_tests_cant": "unbounded CFGs, dead cycles and runs", "anchors": ["cmmc/Transforms/DCE/BlockEliminate.cpp: BlockEliminate::run", "cmmc/Transforms/Util/BlockUtil.cpp: removePhi"]}
{"id": "C64", "title": "What the front end emits is in SSA form", "statement": "For every accepted function the reachable part of the emitted IR is in SSA form, and after BlockEliminate the verifier accepts the function, with unchanged behaviour.", "quantifier": "all accepted functions, all nesting of statements and expressions, all code behind return/break/continue", "why_tests_cant": "unboundedly many programs; dead code and short circuits interact", "anchors": ["cmmc/Frontend/EmitIR.cpp: FunctionDefinition::emit and all emit functions", "cmmc/Transforms/DCE/BlockEliminate.cpp"]}
{"id": "C65", "title": "Optimised code does what the source says", "statement": "For every accepted function, the IR after BlockEliminate, PhiEliminate, SimpleCSE, NoSideEffectEliminate and SimplifyBranch returns what C says the source returns, with the same effects and events, and runs for ever exactly when it should.", "quantifier": "all accepted functions, all arguments, all states of the world, all container orders", "why_tests_cant": "end-to-end composition over unboundedly many programs", "anchors": ["cmmc/Frontend/EmitIR.cpp", "cmmc/Transforms/DCE/PhiEliminate.cpp", "cmmc/Transforms/Merge/CSE.cpp", "cmmc/Transforms/DCE/NoSideEffectEliminate.cpp", "cmmc/Transforms/ControlFlow/SimplifyBranch.cpp"]}
{"id": "C66", "title": "Ending code early preserves what it should", "statement": "Cutting off what follows a call that does not come back preserves every run; replacing blocks that cannot reach a return by unreachable, emptying blocks in front of unreachable, and the whole -O3 group with branch simplification and BlockEliminate preserve every run that returns; the results stay in SSA form and are accepted by the verifier.", "quantifier": "all functions whose reachable part is in SSA form, all opcode semantics, all runs of any length", "why_tests_cant": "unbounded CFGs and runs", "anchors": ["cmmc/Transforms/DCE/NoReturnCallEliminate.cpp", "cmmc/Transforms/DCE/InfiniteEliminate.cpp", "cmmc/Transforms/DCE/UnreachableEliminate.cpp", "cmmc/Transforms/ControlFlow/SimplifyPartialUnreachableBranch.cpp", "cmmc/Transforms/TransformPass.cpp: -O3 group"]}
{"id": "C67", "title": "Moving scalar variables into registers preserves behaviour", "statement": "ScalarMem2Reg terminates on every function in SSA form; the result is in SSA form, and every return value, final memory and output of the result is one of the function before the pass, unless that one has undefined behaviour. When blocks are visited dominators first, as the pass does, no load of a promoted slot is left as an operand of anything.", "quantifier": "all functions in SSA form whose slots are used as their types allow, all visiting orders of blocks and users, all opcode semantics with slots, all runs of any length", "why_tests_cant": "unbounded CFGs (loops, irreducible ones too), orders and runs", "anchors": ["cmmc/Transforms/Combine/ScalarMem2Reg.cpp: filterPromotable, useVariable, addPhiOperands, tryRemoveTrivialPhi, applyMem2Reg"]}
{"id": "C68", "title": "Optimised code with variables in registers does what the source says", "statement": "For every accepted function, the IR after BlockEliminate, ScalarMem2Reg, PhiEliminate, SimpleCSE, NoSideEffectEliminate and SimplifyBranch returns what C says the source returns, with the same effects and events, and runs for ever exactly when it should.", "quantifier": "all accepted functions, all arguments, all states of the world, all container and visiting orders", "why_tests_cant": "end-to-end composition over unboundedly many programs", "anchors": ["cmmc/Frontend/EmitIR.cpp", "cmmc/Transforms/Combine/ScalarMem2Reg.cpp", "cmmc/Transforms/DCE/PhiEliminate.cpp", "cmmc/Transforms/Merge/CSE.cpp"]}
{"id": "C69", "title": "Merging blocks preserves behaviour", "statement": "BlockMerge terminates on every function whose reachable part is in SSA form; the result has the same results, memory and events on every run, its reachable part is in SSA form, and no block is left that ends in a jump to a phi-free block it dominates and that has no other predecessor.", "quantifier": "all functions whose reachable part is in SSA form, whatever the dead code looks like, all opcode semantics, all runs of any length", "why_tests_cant": "chains of merges of unbounded length, loops, dead predecessors", "anchors": ["cmmc/Transforms/ControlFlow/BlockMerge.cpp: BlockMerge::run", "cmmc/Transforms/Util/BlockUtil.cpp: retargetBlock"]}
{"id": "C70", "title": "Jumping over empty blocks preserves behaviour", "statement": "CombineBranch, which makes conditional branches to blocks that only jump on go where these blocks go, keeps results, memory and events on every run and SSA form of the reachable part.", "quantifier": "all functions whose reachable part is in SSA form, all opcode semantics, all runs of any length", "why_tests_cant": "unbounded chains of empty blocks; phis of the new target must be adapted for every predecessor", "anchors": ["cmmc/Transforms/ControlFlow/CombineBranch.cpp: CombineBranch::run", "cmmc/Transforms/Util/BlockUtil.cpp: copyTarget"]}
{"id": "C71", "title": "Jumping over a second branch whose outcome is known preserves behaviour", "statement": "ForwardBranch, which makes a conditional branch to a block that only branches on the same condition, or on a phi whose value is known on this edge, go straight to where control goes next, keeps results, memory and events on every run and SSA form of the reachable part.", "quantifier": "all functions whose reachable part is in SSA form, all opcode semantics, all runs of any length", "why_tests_cant": "depends on both targets of each branch, the values of all phis involved and the order of visits", "anchors": ["cmmc/Transforms/ControlFlow/ForwardBranch.cpp: ForwardBranch::run, tryForward"]}
{"id": "C72", "title": "Inlining calls preserves the behaviour of the program", "statement": "FuncInlining, over any list of functions of a module, leaves a program in SSA form in which every call of every function that ends - returning a value and a memory after some events, or not coming back from a library call - ends the same way as before.", "quantifier": "all programs of functions in SSA form that call each other (recursion included) with declared argument counts, callees that make no stack slots of their own, all meanings of the other opcodes, all call depths and runs of any length", "why_tests_cant": "unboundedly many programs, call nestings, loops around the inlined call, up to 128 inlinings per function each working on the result of the last", "anchors": ["cmmc/Transforms/IPO/Inlining.cpp: applyInline, FuncInlining::run, tryInline, shouldInline", "cmmc/IR/Block.cpp: Block::clone", "cmmc/Transforms/Util/BlockUtil.cpp: splitBlock, fixPhiNode"]}
{"id": "C73", "title": "Unifying returns preserves behaviour", "statement": "UnifyReturn keeps results, memory and events on every run and SSA form of the reachable part, and afterwards at most one block of the function returns (unless it is marked as not returning).", "quantifier": "all functions whose reachable part is in SSA form and whose returns have the declared type, all opcode semantics, all runs of any length", "why_tests_cant": "any number of returns, at any place; the common exit needs a value on every edge", "anchors": ["cmmc/Transforms/ControlFlow/UnifyReturn.cpp: UnifyReturn::run"]}
{"id": "C74", "title": "Sinking code towards its uses preserves behaviour", "statement": "CodeSink keeps results, memory and events on every run, keeps SSA form, blocks, edges and instructions, whatever the trip counts are, if the entry block is not a jump target.", "quantifier": "all functions in SSA form, all trip counts and hotness decisions, all opcode semantics, all runs of any length", "why_tests_cant": "moves enable each other; the target must be reached only after the operands and before every use on every path", "anchors": ["cmmc/Transforms/Misc/CodeSink.cpp: CodeSink::run, sinkBlock"]}
{"id": "C75", "title": "Hoisting code to colder blocks preserves behaviour", "statement": "CodeMove keeps results, memory and events on every run, keeps SSA form, blocks, edges and instructions, whatever the trip counts and the target's native types are.", "quantifier": "all functions in SSA form, all trip counts, all targets, all opcode semantics in which the selected operations always have a value, all runs of any length", "why_tests_cant": "hoisted code runs on paths on which it did not run before; moves enable each other", "anchors": ["cmmc/Transforms/Misc/CodeMove.cpp: CodeMove::run"]}
{"id": "C76", "title": "Sorting blocks keeps the entry first and changes nothing else", "statement": "BlockSort terminates, keeps every block with its contents, leaves the entry block at the front of the list (where execution starts), keeps results, memory and events on every run and SSA form of the reachable part.", "quantifier": "all functions whose reachable part is in SSA form with fewer than about 40 million branches, all opcode semantics, all runs", "why_tests_cant": "weights depend on every path of the search and are 32-bit numbers; dead blocks and loops to the entry", "anchors": ["cmmc/Transforms/Misc/BlockSort.cpp: sortBlocks", "cmmc/IR/Function.hpp: entryBlock"]}
{"id": "C77", "title": "Turning tail calls into loops preserves the behaviour of the program", "statement": "TailCallEliminate on a function leaves a program in SSA form in which every call of every function that returns still returns the same value and memory after the same events; unless the function calls itself in its entry block (so that it never returns), a call that does not come back from a library call does so after the same events, too.", "quantifier": "all programs of functions in SSA form that call each other with declared argument counts, tail calls returned directly, through a phi of the returning block, through one associative and commutative operation, or dropped in favour of another value; functions without stack slots, all meanings of the other opcodes, all recursion depths and runs of any length", "why_tests_cant": "the recursion depth is unbounded; the accumulator re-associates the whole chain of operations", "anchors": ["cmmc/Transforms/ControlFlow/TailCallEliminate.cpp: TailCallEliminate::run, handleBlock, eliminateCall, getLastRecursiveCall"]}
{"id": "C78", "title": "Reordering instructions within blocks preserves behaviour", "statement": "InstReorder, whatever priorities its queue uses, schedules every instruction of every block exactly once, keeps the phis first and the terminator last, keeps SSA form, and every run that returns returns the same value and memory after the same events; if no instruction fails to come back, every run ends or goes on for ever as before.", "quantifier": "all functions in SSA form, all priorities, all opcode semantics in which movable opcodes do not touch memory and commutative ones commute, all runs of any length", "why_tests_cant": "the schedule depends on floating-point weights summed over the whole block; the assertion that every instruction was scheduled must never fail", "anchors": ["cmmc/Transforms/Misc/InstReorder.cpp: reorderBlock, rearrangeCommutative, run", "cmmc/Transforms/Util/BlockUtil.cpp: isMovableExpr"]}
{"id": "C79", "title": "Folding blocks of phis into their target preserves behaviour", "statement": "PhiMerge keeps results, memory and events on every run, keeps SSA form, and, when every phi has an entry for each predecessor, never fails to look up an entry, ends, and leaves no block that could still be folded.", "quantifier": "all functions whose reachable part is in SSA form, all opcode semantics, all runs of any length", "why_tests_cant": "phis are assigned simultaneously; folding one block makes others foldable; predecessors may be loops through the target", "anchors": ["cmmc/Transforms/ControlFlow/PhiMerge.cpp: PhiMerge::run", "cmmc/Transforms/Util/BlockUtil.cpp: resetTarget"]}
{"id": "C80", "title": "Replacing a branch over a few instructions by selects preserves behaviour", "statement": "Branch2Select, which executes a small side block always and selects between its values and the old ones, keeps results, memory and events on every run and SSA form; no division, call, store or load from an address not known to be valid is executed that was not executed before; when every phi has an entry for each predecessor the pass ends without failing to look up an entry.", "quantifier": "all functions whose reachable part is in SSA form and whose entry is not a jump target, all opcode semantics in which the operations that may be executed speculatively have a value, all runs of any length, targets with and without select", "why_tests_cant": "speculated code runs on paths on which it did not run before, in loops; phis are assigned simultaneously; the predecessor lists are those from the start of the pass", "anchors": ["cmmc/Transforms/ControlFlow/Branch2Select.cpp: Branch2Select::canFold, Branch2Select::run"]}
{"id": "C81", "title": "Propagating branch conditions preserves behaviour", "statement": "ConditionalPropagation always ends, and the function in which uses of conditions are replaced by true or false where every way in comes over the corresponding side of a branch on them behaves like the original on every run (results, memory, events, divergence), is in SSA form and has the same branches.", "quantifier": "all functions whose reachable part is in SSA form and whose entry is not a jump target, all opcode semantics in which a condition is one of the two constants, all orders in which hash sets are walked, all runs of any length", "why_tests_cant": "facts are intersected over all ways into strongly connected components in an order that depends on hash sets; a condition may be recomputed in a loop after a branch on it", "anchors": ["cmmc/Transforms/Combine/ConditionalPropagation.cpp: ConditionSet, ConditionalPropagation::run", "cmmc/IR/Instruction.cpp: UserList::replaceWithInBlock", "cmmc/Support/Graph.cpp: calcSCC"]}
{"id": "C82", "title": "Turning a chain of comparisons into a switch preserves behaviour", "statement": "Branch2Switch ends, never fails to look up a phi entry, and the function in which the first block of a chain of equality tests of one value against different integers switches directly to the targets behaves like the original on every run (results, memory, events, divergence) and is in SSA form.", "quantifier": "all functions whose reachable part is in SSA form, all opcode semantics in which equality and inequality with an integer constant agree with what a switch looks up, all runs of any length", "why_tests_cant": "the skipped blocks may be entered from elsewhere, tests may be of either polarity and in any order, several chains may share blocks, the comparison may be computed in another block", "anchors": ["cmmc/Transforms/ControlFlow/Branch2Switch.cpp: Branch2Switch::run, matchCaseChain, matchICmpEqual", "cmmc/Transforms/Util/BlockUtil.cpp: copyTarget"]}
{"id": "C83", "title": "Replacing a parameter by the constant all calls pass preserves behaviour", "statement": "After IPConstantPropagation every function of the module still is in SSA form and fits its declaration, and every call of a function visible outside the module that ends (returning a value and a memory after some output, or halting) ends in exactly the same way.", "quantifier": "all modules of well-formed functions, recursive or not, all arguments and memories, all depths of nested calls, all opcode semantics, all orders of functions", "why_tests_cant": "a parameter is replaced because of what all call sites of the module pass, including recursive ones that pass the parameter on; correctness is about all chains of calls", "anchors": ["cmmc/Transforms/IPO/IPConstantPropagation.cpp: IPConstantPropagation::run"]}
{"id": "C84", "title": "Removing unused parameters preserves behaviour", "statement": "After DeadArgEliminate every function of the module is in SSA form and is called with as many arguments as its new declaration has parameters, declarations of functions visible outside are unchanged, and every call of such a function that ends (returning a value and a memory after some output, or halting) ends in exactly the same way.", "quantifier": "all modules of well-formed functions, recursive or not, all sets of unused parameters, all arguments and memories, all depths of nested calls, all opcode semantics, all orders of functions", "why_tests_cant": "operands are erased by index at every call site of the module, several at a time; the remaining parameters must still receive their arguments in all chains of calls", "anchors": ["cmmc/Transforms/DCE/DeadArgEliminate.cpp: DeadArgEliminate::run, removeUnusedArgs"]}
{"id": "C85", "title": "Dropping unused return values preserves behaviour", "statement": "After DiscardReturnValue the module is well-formed with the new declarations (no use of the result of a function that returns nothing), every call of a function that still returns a value or may not be changed ends in exactly the same way, and calls of the changed functions end with the same memory and output.", "quantifier": "all modules of well-formed functions, recursive or not, all arguments and memories, all depths of nested calls, all opcode semantics, all orders of functions", "why_tests_cant": "results may be passed on by return statements of the function itself through any number of recursive calls; correctness is about all chains of calls", "anchors": ["cmmc/Transforms/IPO/DiscardReturnValue.cpp: DiscardReturnValue::isUsed, DiscardReturnValue::run"]}
{"id": "C86", "title": "Inferred function attributes are true", "statement": "An attribute that FunctionAttrInfer gives to a function, on any module and in any order of functions, holds of every call: a NoReturn function never returns; a NoMemoryWrite function leaves the memory as it was; a call of a NoSideEffect function that ends returns, prints nothing and leaves the memory as it was; in a module without calls through pointers a NoMemoryRead function does the same in any two memories of the same layout, whatever they contain, and a Stateless function is both NoSideEffect and NoMemoryRead; a NoRecurse function does not call itself directly.", "quantifier": "all modules, recursive or not, all arguments and memories, all depths of nested calls, all opcode semantics in which address arithmetic stays in the frame it started in, all numbers of rounds of the address-space analysis, all orders of functions and blocks, all true attributes at the start", "why_tests_cant": "attributes are statements about all calls with all memories, and a recursive function is assumed to have the attribute while it is inferred; addresses flow through phis in loops", "anchors": ["cmmc/Transforms/Analysis/FunctionAttrInfer.cpp: FunctionAttrInfer::run", "cmmc/Analysis/PointerAddressSpaceAnalysis.cpp: PointerAddressSpaceAnalysis::run"]}
{"id": "C87", "title": "Removing invisible stores preserves behaviour", "statement": "Removing stores that StoreEliminate's search finds to be overwritten before anybody reads the address, or that write into the frame of the function and are not read before it returns, leaves every call that ends (returning a value and a memory after some output, or halting) with the same result, memory and output, and the function in SSA form.", "quantifier": "all programs of functions whose reachable part is in SSA form, all loops and paths after the store, all answers of the alias, leak, dominance and address space analyses that are true of the runs of the function, all arguments and memories, all depths of nested calls, all opcode semantics with the laws of a memory with frames", "why_tests_cant": "the search forgets the store at the first overwriting on each path and takes every visited block for settled, so one wrong verdict (a call, a loop back to the store, a return) only shows on the one path that reads the old value", "anchors": ["cmmc/Transforms/DCE/StoreEliminate.cpp:46-120 (isInvisible)", "cmmc/Transforms/DCE/StoreEliminate.cpp:122-139 (runOnBlock)"]}
{"id": "C88", "title": "Scalar evolution tells the truth", "statement": "What SCEVAnalysis says about a value holds in every run: a value it calls the constant z has value z, and a value it calls {c0,+,c1,+,...} in a loop found by LoopAnalysis has, in iteration n of that loop (counted from 0 since the loop was last entered), the value of the sum of ck*C(n,k) in the type of the value, including wraparound.", "quantifier": "all functions whose reachable part is in SSA form and well typed, all loops nested or not, any number of operands, all numbers of iterations, all memories, all opcode semantics with the laws of addition and multiplication modulo a power of two", "why_tests_cant": "the statement is about every iteration of every execution of the loop, and the recurrences are folded symbolically with binomial coefficients; a test sees a few iterations of a few loops", "anchors": ["cmmc/Analysis/SCEVAnalysis.cpp: SCEVAnalysis::run, foldAdd, foldMul, getBinomialCoefficient", "cmmc/Analysis/SCEVExpr.hpp: SCEV", "cmmc/Analysis/LoopAnalysis.cpp: LoopAnalysis::run"]}
{"id": "C89", "title": "Replacing products by induction variables preserves behaviour", "statement": "LoopStrengthReduction, which gives each value that SCEVAnalysis calls a polynomial of the iteration number a chain of new induction variables (phis in the loop header, additions in front of the value) and makes every user of the value use the first of them, always succeeds, leaves the function in SSA form, and preserves every result, final memory, output, halt and endless run in which nothing undefined happens.", "quantifier": "all functions whose reachable part is in SSA form and well typed, all nests of loops, polynomials of every degree, all numbers of iterations with wraparound, all memories, all opcode semantics with the laws of addition and multiplication modulo a power of two, both settings of the flag for parallel loops", "why_tests_cant": "the new variables must have the right value in every iteration of every run, including runs that leave the loop in the middle of an iteration and enter it again, and users anywhere behind the value are changed", "anchors": ["cmmc/Transforms/Loop/LoopStrengthReduction.cpp: buildAddRec, tryExpandSCEV, LoopStrengthReduction::run"]}
{"id": "C90", "title": "Removing the back edge of loops that run once preserves behaviour", "statement": "LoopEliminate, which makes the branch at the end of a one-block loop unconditional when initial value plus step has reached the constant bound, leaves every function with the same results, final memory, output, halts and endless runs (provided that this sum does not wrap around), and in SSA form.", "quantifier": "all functions whose reachable part is in SSA form and well typed, all loops that LoopAnalysis finds, all three loop predicates, all constants, all memories, all opcode semantics with the laws of addition and signed comparison", "why_tests_cant": "the claim is that the second iteration never happens, in any execution of the loop, however often it is entered", "anchors": ["cmmc/Transforms/Loop/LoopEliminate.cpp: LoopEliminate::run", "cmmc/Analysis/LoopAnalysis.cpp: LoopAnalysis::run"]}
{"id": "C91", "title": "Moving loop-invariant code in front of one-block loops preserves behaviour", "statement": "LoopInvariantCodeMotion, which puts a new block in front of each one-block loop, splits the phis of the loop between the two, and moves every instruction there whose operands are computed outside, always succeeds, leaves the function in SSA form without unreachable blocks, and preserves every result, final memory, output, halt and endless run in which nothing undefined happens, provided that no instruction that may fail is moved past one that may end the program.", "quantifier": "all functions in SSA form without unreachable blocks, any number of one-block loops in any arrangement, all instructions that are moved (divisions and pure calls included), all memories, all opcode semantics in which the movable opcodes do not depend on or change memory, all runs of any length", "why_tests_cant": "moved code runs before everything else in the loop; phis of the loop and of the new block are assigned simultaneously; earlier loops change the terminators and phis later loops see", "anchors": ["cmmc/Transforms/Loop/LoopInvariantCodeMotion.cpp: LoopInvariantCodeMotion::isMovable, runOnLoop, run", "cmmc/Transforms/Util/BlockUtil.cpp: resetTarget"]}
{"id": "C92", "title": "Simplifications from value ranges preserve the value", "statement": "Every rewrite of RangeAwareArithReduce (folding a value or comparison decided by ranges, comparisons of selects, abs/max/min of separated ranges, two-sided bounds checks turned into one unsigned comparison, (x%m+m)%m) gives the same value whenever the original is defined and the answers of the range analysis are true, at any position in an expression; signed remainder may become unsigned, and an inner remainder of a product may be dropped, in the cases in which the dividend is not negative or the divisor constant, and in which the product does not overflow.", "quantifier": "all expressions and operands, all true answers of the range analysis, all values of the variables", "why_tests_cant": "the rules interact with the range arithmetic, which is only right up to overflow; each guard has boundary cases on both sides of the signed and the unsigned limits", "anchors": ["cmmc/Transforms/Combine/RangeAwareArithReduce.cpp: RangeAwareArithReduce::runOnBlock", "cmmc/Analysis/IntegerRangeAnalysis.cpp: IntegerRangeAnalysisResult::query"]}
{"id": "C93", "title": "The integer range analysis tells the truth about every run", "statement": "Whatever order instructions are visited in and however often, in every run of the function every register that holds a 32-bit integer holds a member of the range IntegerRangeAnalysis gives for it (signed bounds, unsigned bounds and known bits), at the entry of every block and between any two instructions; this includes the low bits that it finds to be zero in all the values of a counter.", "quantifier": "all functions in which every name is defined once, all loops and numbers of iterations, all orders and numbers of visits, all memories, all opcode semantics with the laws of 32-bit arithmetic, builds with and without assertions", "why_tests_cant": "ranges of phis are found by iterating around loops and cut off after a number of visits; the claim is about all iterations of all runs", "anchors": ["cmmc/Analysis/IntegerRangeAnalysis.cpp: IntegerRangeAnalysis::run, IntegerRangeAnalysisResult::query", "cmmc/Analysis/IntegerRange.cpp: IntegerRange"]}
{"id": "C94", "title": "Facts from branches and switches that the integer range analysis uses are true where it uses them", "statement": "Whatever order things are visited in, at every point of a block that a run reaches, an operand that is a 32-bit integer is a member of every range that IntegerRangeAnalysis answers for it in the context of that block, including the bounds that follow from comparisons whose outcome decides whether the block is entered and from the case of a switch that leads to it.", "quantifier": "all functions the verifier accepts, all loops and numbers of iterations, all orders and numbers of visits, all selections of dominating blocks whose facts are used, all memories, all opcode semantics with the laws of 32-bit arithmetic and comparison", "why_tests_cant": "a fact is recorded for one edge and used in all dominated blocks, also when the comparison was computed in an earlier block or an earlier iteration", "anchors": ["cmmc/Analysis/IntegerRangeAnalysis.cpp: IntegerRangeAnalysisResult::query, updateContextual, IntegerRangeAnalysis::run", "cmmc/IR/Instruction.hpp: getInvertedOp"]}
{"id": "C95", "title": "Replacing chains of inequalities by a bit mask test preserves the value", "statement": "ValueInSetCombine replaces a conjunction `x != c1 && x != c2 && ...`, wherever its parts are in the block, by code (sections of the set, differences, shifts, masks, selects) whose value is that of the conjunction, whatever a shift by more than the register width yields, provided that all parts compare the same value and no difference of the value and the start of a section wraps around.", "quantifier": "all blocks, all numbers and orders of comparisons and conjunctions, all sets of constants of any type up to the register width, all values of the compared integer, register widths up to 64, all meanings of shifts that are too long", "why_tests_cant": "the wrong cases are single values near the ends of the type and conjunctions with an additional part; the number of sections is unbounded", "anchors": ["cmmc/Transforms/Combine/ValueInSetCombine.cpp: State, ValueInSetCombine::handleFinalState, ValueInSetCombine::runBlock"]}
{"id": "C96", "title": "Reassociation preserves the value of expressions", "statement": "Reassociate, which flattens trees of additions, multiplications, bitwise operations, minima or maxima inside a block into operands with multiplicities and builds them anew (products with constants, repeated squaring, dropped repetitions), replaces every instruction by a value that is equal to it in every run, and always finds such a value, provided that the multiplicities fit into 32 bits (for additions of at most 32 bits, bitwise operations, minima and maxima the value is right even if they do not).", "quantifier": "all expressions of any depth, all integer widths, all orders in which operands are sorted, merged and combined, all values of the operands", "why_tests_cant": "operand lists grow by multiplication along the block, and the rebuilt value depends on pointer order", "anchors": ["cmmc/Transforms/Combine/Reassociate.cpp: Reassociate::runOnBlock"]}
{"id": "C97", "title": "Pointer alignments hold in every run", "statement": "Whatever order instructions are visited in and however often, in every run of a function whose registers hold addresses aligned for their type, every register that holds an address holds a multiple of the alignment PointerAlignmentAnalysis gives for it, at the entry of every block and between any two instructions; this includes pointers that are advanced in loops and array accesses with indices some of whose low bits are known to be zero.", "quantifier": "all functions in which every name is defined once, all loops and numbers of iterations, all orders and numbers of visits, all memories, all opcode semantics with address arithmetic modulo 2^64, all results of the range analysis", "why_tests_cant": "the code generator drops alignment handling because of a claim about all iterations; the claim for a phi is assumed while it is derived for the pointer advanced from it", "anchors": ["cmmc/Analysis/PointerAlignmentAnalysis.cpp: PointerAlignmentAnalysis::run, PointerAlignmentAnalysisResult::lookup", "cmmc/IR/Instruction.cpp: GetElementPtrInst::gatherOffsets"]}
{"id": "C98", "title": "A load is replaced only by the value in memory", "statement": "Within a block, whenever LoadReduce replaces the result of a load by an earlier stored or loaded value or by the initial value of a read-only global, the result has that value in every execution, so the block keeps its executions; and a store removed as a self assignment would have written the value that is in memory already.", "quantifier": "all blocks, all initial memories, all alias-analysis and pointer-base results that are true of the execution, all calls, all initial values", "why_tests_cant": "the table of known values is invalidated by each kind of instruction differently; a missing invalidation shows only when two pointers coincide at run time", "anchors": ["cmmc/Analysis/SimpleValueAnalysis.cpp: extractConstant, SimpleValueAnalysis::next, SimpleValueAnalysis::getLastValue", "cmmc/Transforms/Combine/LoadReduce.cpp: LoadReduce::runBlock", "cmmc/Transforms/DCE/StoreEliminate.cpp: runOnBlock"]}
{"id": "C99", "title": "Pointers with different bases are different", "statement": "In every run of a function, every value a pointer takes points into the allocation or global PointerBaseAnalysis gives as its base, also for pointers that are chosen between, merged and advanced in loops; so pointers with different bases never address the same memory.", "quantifier": "all functions, all runs of any length, all orders in which the analysis visits pointers", "why_tests_cant": "the base of a phi must be right for all iterations, and a wrong base makes memory optimisations unsound only for particular pointer values", "anchors": ["cmmc/Analysis/PointerBaseAnalysis.cpp: PointerBaseAnalysis::run, PointerBaseAnalysisResult::lookup"]}
{"id": "C100", "title": "Stores removed as store-only are never read", "statement": "When SimpleStoreEliminate removes a store, the store writes into a local allocation, and in no run does a load, call, return or any instruction but stores and address computations have a pointer into that allocation as an operand, so nothing can observe the stored value.", "quantifier": "all functions, all runs of any length, all stores the pass removes", "why_tests_cant": "pointers reach a load through chains of address computations, merges and loops, and the pass looks only at direct uses", "anchors": ["cmmc/Transforms/DCE/StoreEliminate.cpp: SimpleStoreEliminate, removeStoreOnlyAlloca"]}
