# Formal model of dtcxzyw/cmmc in Lean 4 — design

## Trusted base

* Lean 4.33.0's kernel. Each theorem depends on at most the three standard axioms `propext`,
  `Classical.choice`, `Quot.sound`; `AXIOMS.md` (generated by `tools/axioms.py`) lists them theorem by theorem.
  No axioms of our own, no compiled evaluation (`decide +kernel` is evaluated by the kernel itself).
* The reading of the C++ source: every model definition cites the file and lines it models. The code is not run.
* C++ abstract-machine facts used in the models (recorded at each definition): unsigned arithmetic wraps at its
  width; `__builtin_clz/ctz(0)`, oversized shifts, signed overflow and failed `assert`s are *undefined/abort*
  outcomes, kept separate from values (a `Prop` of definedness or an `Option`), never silently totalised.
* Unordered containers are modelled by lists/functions; where the C++ iteration order of an unordered container
  can influence the result, the model takes the order as a universally quantified parameter. The same holds for
  heuristics (cost models, block frequencies, register choice): the theorems hold for every choice.
* Memory allocation succeeds; `std::` containers and algorithms do what the standard says.

## Layout

`lean/Verif/<Area>/…`: `Model`/`Sem` files transcribe the code and define what programs mean, `Spec` files contain
independent specifications, `Props` files (or the end of the file) state the properties, other files are lemmas.
The theorem for property Cnn is called `Cnn_…`; `_partial` marks a proved part; `_witness`, `_bad_`, `_false`,
`_wrong` mark proved counterexamples showing that the code does not satisfy the unrestricted claim.

## The properties

For each property: what is modelled, what it is stated against, how it is proved.

### Integer ranges (`Range/`, Analysis/IntegerRange.cpp, IntegerRange.hpp)
Model: the record of known-zero/one masks (BitVec 32) and signed/unsigned bounds, and every member function, line
by line. Specification: `Mem v r`, "the 32-bit value v satisfies mask and bounds". Not modelled: printing.
* **C01** `sync`: for in-limit ranges, the set of members is unchanged (exactness); each helper is shown to only
  drop non-members. Empty ranges are excluded, with a witness that they can become non-empty.
* **C02–C08**: each operation applied to ranges contains the operation applied to members; per-operation
  soundness from lemmas on bounds and masks. sdiv (C06) and abs (C07) are partial: the rest is false (witness).
* **C09**: predicates and constants inferred from a range; isEmpty is wrong in the code (witness).

### Graphs and orders (`SCC/`, `CallGraph/`, `Dom/`)
* **C10, C11** Support/Graph.cpp `calcSCC`: the recursive Tarjan state machine; specification: mutual reachability;
  proof by the invariant of the active stack and low-links.
* **C28** Analysis/CallGraphSCC.cpp: Kahn's algorithm on the component DAG, for every enumeration order.
* **C29, C30** Analysis/DominateAnalysis.cpp: Lengauer–Tarjan as written (semidominators, link-eval with path
  compression), dfs numbering, jump table; specification: dominance by paths. Not modelled: `reversedBlocks`.
* **C32** Analysis/CFGAnalysis.cpp: fold over blocks and terminators; both directions of the relation.

### Support (`Support/`)
* **C12** LabelAllocator + String equality/printing; **C13** Arena; **C14** IntrusiveList: state machines, invariants
  over arbitrary histories (C14: refinement of a pointer heap to sequences).

### Code generation arithmetic and layout (`MulConst/`, `Layout/`, `Frame/`, `Phi/`)
* **C15, C16** CodeGen/MultiplyByConstant.cpp: search with memo table, emitted shift/add code evaluated on BitVec w.
* **C17, C33** IR/Type.cpp layout and GetElementPtr offsets: recursive types, sub-object paths.
* **C18, C34, C35** StackAllocation.cpp, FrameInfo.cpp: bump allocation; prologue/epilogue insertion and removal of
  dead spill stores as transformations of a small-step machine; simulation proofs. Not modelled: sp adjustment
  itself, ARM push/pop variants.
* **C27** Lowering.cpp `emitBranch`: parallel copy through staging registers, executed on a register file.

### Run-time library (`Runtime/`)
* **C19, C23** partition of parallel loops, triangular remainder; **C20** futex protocol as an interleaving
  transition system with spurious wake-ups (safety, deadlock freedom, termination); **C21** tuner table;
  **C22** memo cache of StatelessCache. Not modelled: thread start-up and shutdown, memory-order weaker than SC,
  reduction helpers.

### IR values (`IR/`)
* **C24, C25, C36** constants, folding, predicate tables on BitVec of any width 1..64. Floating-point arithmetic is
  host arithmetic and not modelled (comparisons are, with an abstract ordered/unordered outcome).
* **C26** every integer rewrite rule of Transforms/Combine/ArithmeticReduce.cpp as a partial function on
  expressions; refinement of partial evaluation in any context; unsound rules are refuted individually.

### SSA functions (`SSA/`)
Model: functions as block lists with phis, instructions (opcode, operands), terminators; small-step semantics
parameterised by the meaning of opcodes, memory and events; undefined runs allow anything (`Refines`). Hash
containers are orders that are quantified over.
* **C31** NoSideEffectEliminate; **C37** SimplifyBranch, MergeBranch, SimplifyPartialUnreachableBranch;
  **C39** SimpleCSE; **C40** PhiEliminate; **C41** GVN: simulation proofs; the SSA passes use an availability
  invariant ("every dominating definition holds the value it computes") derived from **C38** Function::verify.
* **C63** `BlockElim.lean`: BlockEliminate. The search finds exactly the live blocks; behaviour is unchanged for any code with a
  sane block list (`C63_any_code`); if the live part is in SSA form (`LiveWf`, nothing required of dead code) the result is
  well-formed and accepted by the verifier (`C63_blockEliminate`).
* **C66** `Cut.lean`, `CutEx.lean`: NoReturnCallEliminate (full refinement), InfiniteEliminate and UnreachableEliminate (only
  runs that return are preserved: that is the assumption written at TransformPass.cpp:439), each keeping `LiveWf`; and the
  -O3 group of four passes. `Cut F G` says that blocks of `G` end earlier than those of `F`; dominance only gets stronger.
* **C67** `Mem2Reg.lean` (the pass), `M2Cert.lean` (a certificate: what is in each slot at each point, as an operand of the result),
  `M2Step/M2Priv/M2Sim/M2Ref` (a certificate gives refinement; the memory of promoted slots is private), `M2Try/M2Use/M2Alg` (the
  algorithm of Braun et al. keeps the certificate), `M2Proper` (SSA form), `M2Term` (it terminates), `M2Main.lean` (`C67_scalarMem2Reg`),
  `M2Done.lean` (`C67_no_loads`: nothing of the result uses a load of a promoted slot, so that dead-code elimination removes them).
  The opcodes are any language with slots (`Slots`): loads and stores of slots read and write them, everything else leaves them alone.
* **C69** `Merge.lean`: BlockMerge with `retargetBlock`. `mergeInto` removes one block; behaviour by a simulation in which one step of
  the result stands for two of the original; dominance of the remaining blocks is unchanged; each merge shortens the block list.
* **C70** `Redirect.lean` (one edge goes over an empty block: behaviour, SSA form and dominance, for any way to adapt the phis),
  `Combine.lean`: CombineBranch with `copyTarget`, as a fold of redirections. **C71** `Forward.lean`: ForwardBranch, likewise; the
  phi that is jumped over has one use, the branch. `FlowEx.lean`: concrete functions, and the function on which the code is wrong.
* **C72** `Inline.lean` (applyInline for one call, and that the copy of the callee runs as the callee does), `InlineRef.lean` (behaviour of
  the caller, endless runs included), `InlineWf.lean`/`InlineLive.lean` (dominance and SSA form of the result), `InlineProg.lean` (programs:
  what a call does when calls are nested at most `d` deep; exchanging one function), `InlinePass.lean` (findCall, 128 rounds, a module).
  Modelled: new blocks and instructions get unused names (`freshCopy`); the phi for the result keeps the name of the call instead of
  replacing its uses. Not modelled: callees with allocas. `InlineEx.lean`: a program.
* **C73** `UnifyRet.lean`: UnifyReturn.cpp:31-75; a simulation in which a return of the original is two steps of the result; dominance by
  paths that do not use the new exit. `RetTyped`: returns have the declared type (what the verifier checks).
* **C74**, **C75** `Motion.lean` (taking an instruction out of one block and putting it at the front or end of another: SSA form, ids,
  dominance), `MotionRef.lean` (behaviour: both programs agree on the moved instruction wherever it has been computed in either, `Knows`),
  `Sink.lean` (CodeSink.cpp:38-137 and CodeMove.cpp:49-150 as folds of such moves). Trip counts, hotness and the target's native types are
  parameters. Loads (`isUniform`) are not moved in the model. `SinkEx.lean`: concrete functions, one of which CodeSink breaks.
* **C76** `Sort.lean`: BlockSort.cpp:30-103. The search with its queue and 32-bit weights; invariant: keys of the map are the blocks taken out of the
  queue followed by the queue, all weights but the entry's are at least 100 (`SmallEnough`: no weight wraps around). `SortEx.lean`: a function.
* **C77** `Tail*.lean`: TailCallEliminate.cpp:38-349, one run on one function of a program (`Conv.call`, as for C72). `Tail` the rewritten function,
  `TailSim/TailRef/TailLoop` the simulation: a run of the loop is the chain of nested invocations unrolled, `comb` is what the outer
  invocations will still do to the value (identity, multiply by the accumulator, or keep the first value); `TailProg` exchange of the function in the program by
  induction on the call depth; `TailWf/TailLive/TailFn` SSA form; `TailPass` the search and fresh names; `TailPull/TailPull2` the copied return; `TailMain` the entry
  case (the function never returns, so nothing is claimed for its non-returning calls) and the theorem; `TailEx` four functions.
  Simplified: `call->isUsed()` is "the returned value is the call" for calls at the end; the accumulator's single user is the `ret` of its own block; SMax and SMin are no
  accumulators (finding 67); the loop in l.243-251 never runs and is left out; new names come from `freshTail`.
* **C78** `Reorder*.lean`: InstReorder.cpp. `Reorder` the dependencies, degrees and the loop over the priority queue (`pick` decides, any function): invariant of Kahn's
  algorithm, so each node is taken once and after all nodes that wait for it. `ReorderPass` the nodes of a block: chain of locked instructions, phis in front. `ReorderSem` a
  list of instructions in another order that keeps the locked ones in order and operands first does the same. `ReorderMain` SSA form, `rearrangeCommutative`, theorem. `ReorderEx`
  a loop under two queues, and `exits_wrong`. Weights (l.87-143) are not computed.
* **C79** `PhiMerge.lean`: PhiMerge.cpp, `resetTarget`. One fold = `MergeStep` (from the checks of the code, use counts included), SSA form by lifting paths through the folded
  block, behaviour by a simulation in which two steps (into the phi block, on to the target) become one; the registers of the folded phis are the only ones that differ.
  The loop is run with as much fuel as there are blocks and shown not to run out.
* **C80** `ToSelect.lean` (model of Branch2Select.cpp, one fold = `SelStep`, SSA form), `ToSelectRun.lean` (what the opcodes have to satisfy, `B2SLang`; the side block cannot
  fail; the selects compute the phi entries), `ToSelectMain.lean` (simulation in which `S→A→B` and `S→B` both become `S→A→B`; registers of `A` and selects may differ and nobody
  reads them as only `A` is dominated by `A`; the pass works with the predecessor lists of its start, edges only disappear), `ToSelectEx.lean`.
* **C81** `CondProp.lean` (model of ConditionalPropagation.cpp:33-205 on top of the models of `calcSCC` and `CFGAnalysis`; the queue loop keeps `ColInv`), `CondPropSets.lean`
  (`condSets_spec`: the sets are computed and, along every edge, what is known behind it is known before it or is the condition of the branch, from which there is no way
  back), `CondPropMain.lean` (`CondSound.settled`: a known condition is not recomputed; lockstep), `CondPropEx.lean`. Assumption on the language: `Bools`.
* **C82** (partial) `Switch.lean` (model of Branch2Switch.cpp:33-141), `SwitchWf.lean` (one conversion keeps SSA form: every path afterwards expands to one before), `SwitchMain.lean`
  (simulation: the source walks through the chain, `Links.run`, while the target switches; registers of the skipped blocks may differ), `SwitchPass.lean` (the loop over blocks; heads stay
  reachable because only visited blocks become unreachable). Uses `LiveEqns.lean` (the value of a comparison is what its operands give it now). Missing: the pass also skips blocks with side effects
  (`C82_linkFree_needed`); the theorem asks for `LinkFree`.
* **C83, C84, C85** `Ipo.lean` (a change of operands, instructions and terminators in all functions at once, `Func.remap`; it keeps SSA form, `LiveWf.remap`; `Remap.run`: runs in lockstep where
  registers in a set `K` may differ; `Conv.remap_program`: induction on the depth of calls with a relation between the arguments passed before and after), `IpConst.lean`
  (IPConstantPropagation.cpp:31-68), `DeadArg.lean` (DeadArgEliminate.cpp:24-70), `DiscardRet.lean` (DiscardReturnValue.cpp:36-79), `IpoEx.lean` (all three passes on one program). Parameters are
  written with their positions, so removing one renumbers the others (`renumber`); in the code the `FuncArgument` objects stay.
* **C86** `AttrSem.lean` (invariants of one run and of two runs in different memories; `Frames`: calls with a frame per invocation, where callees may reach the frames of their callers through
  pointers; `Conv.frames_call`: the calls of C72, C83-C85 are an instance), `Attr.lean` (FunctionAttrInfer.cpp:27-183, PointerAddressSpaceAnalysis.cpp:45-141; `Spaces`: what opcodes may do to memory;
  `AttrsOk`: what the attributes say about calls), `AttrMain.lean` (tags have reasons, `tagRounds_ok`; tagged values are addresses in the frame along every run, `TagInv`; each attribute by induction on
  the depth of calls), `AttrEx.lean` (a language with a stack of frames that satisfies `Spaces`; a recursive function that gets Stateless). Only tags InternalStack are modelled: the analysis gives no
  others. Assumed in `Spaces`: address arithmetic does not leave the frame, functions without body do what their declared attributes say.
* **C87** `StoreElim.lean` (`isInvisible`: verdicts on instructions, the search with its visited blocks and its limit; what a search that says yes has found, by induction on the depth), `StoreRun.lean` (`Stores`:
  laws of loads and stores, satisfied by `Ex.zStores`; `Sound`: what the alias and leak analyses say is true of the runs; the run with and the run without the store side by side: the memories are equal, or they
  differ at most where the address points to and the search has let everything pass up to here), `StorePass.lean` (SSA form is kept; exchange of a function in a program, by induction on the depth of calls; any
  number of removals), `StoreEx.lean` (a function with a dead store to a global overwritten on both sides of a branch, and a dead store to a local; `atomic_needed`: with an atomic add instead of the overwriting
  store the pass is wrong). `_partial`: no atomic add to the address; analyses assumed true at each removal; second half of the pass not modelled.
* **C88** `Scev.lean` (expressions, `foldAdd`, `foldMul` with Pascal's triangle; `poly`, the specification of a recurrence; products of binomial coefficients by Vandermonde's identity), `ScevInv.lean` (`Arith`:
  laws of integer opcodes; `Ev`: derivations of what a value is in iteration n; `Iter.J`: they are right at every point, by induction over the run with the number of the iteration as ghost state; `iterAt`, `stAt`:
  the specification of "iteration n"), `ScevRun.lean` (LoopAnalysis.cpp:24-112 and SCEVAnalysis.cpp:221-330 on the result of the dominator analysis of C29/C30; every entry of the table has a derivation),
  `ScevEx.lean` (32-bit arithmetic; `i*i` in a loop; `div_wrong`). `_partial`: no `sdiv`.
* **C89** `LsrStep.lean` (`Func.addIV`: one phi and its increment, `addIV_wf`), `LsrIv.lean` (`IV`: a chain of induction variables, its value in iteration `n`; `addIV_refines`), `LsrSub.lean` (replacing a value by another one that is available
  earlier: `LiveWf.replaceHead`, `Ev.replace`: derivations of the other table entries survive), `Lsr.lean` (`buildAddRec`, `tryExpandSCEV`, the walk over the function with the analyses of the start; `expand_ok` is the invariant).
  Proved against any language with the laws of `StrengthOps`, met by 32-bit arithmetic (`Ex.wStrength`). Not modelled: `tryExpandMulAddRecWithLoopInv` (l.120-187).
  Finding 84: the pre-check `useCount() < 4` guards nothing: `tryExpandSCEV` rejects additions and phis, and the other expansion only matches products.
* **C90** `LoopElim.lean`: LoopEliminate.cpp on the loops of LoopAnalysis (C88). `never_refines`: in a one-block loop whose false target is elsewhere the block is never entered from itself, so the phi has the initial value; the equations
  of SSA form (`Eqns`) give the next value and the comparison. `LoopElimEx.lean`: a loop with one iteration. `_partial`: `initial + step` must fit into the type.
  Finding 85: `initial + loop.step` is computed with 64 bits (LoopEliminate.cpp:43), while the program wraps at 32: `i = 2147483647; do i = i + 1; while(i < -2147483647)` runs twice, the pass makes it run once (`Ex.wraps_wrong`).
* **C91** `Preheader.lean`, `PreheaderRef.lean`: a block in front of a one-block loop with the phis split in two; simulation in which a step into the loop from outside is two steps of the new function (the registers above `n` differ). `MotionAhead.lean`: moving an instruction that may fail to the block that jumps to its block; if it fails there, the old function fails two steps later (at the latest), unless something in front of it halts. `Licm.lean`: LoopInvariantCodeMotion.cpp as the insertion followed by single moves, over all loops of LoopAnalysis; loads are left out.
  Findings 86: `isMovable` looks only at the instruction itself, so a division (or a pure call that may fail) is moved past a call that does not return: `do { exit(); d = 5 / x; … }` with `x = 0` divides by zero
  (`Ex.exitDiv_not`). 87: the terminators of predecessors are cast to `BranchInst` (l.117) although they may be switches; the model resets switches, too.
* **C92** `IR/RangeReduce.lean`: RangeAwareArithReduce.cpp rule by rule on the expressions of C26; the analysis is any function whose answers contain the value (C02-C08). The guard of `(x % m + m) % m` is evaluated
  symbolically (`sync_straddle`, `remAdd_guard`). Two rules are wrong as written. Finding 88: `x % y` becomes unsigned if the *result* is not negative; with `y > 0` and `a[x % y]` in range this holds for `x = -3`, `y = 3`, and `a[1]` is read
  instead of `a[0]` (`C92_rem_bad`; right for constants, `C92_rem_partial`, and for ranges computed from the operands, `C92_rem_transfer`). Finding 89: `(x % y * z) % y` becomes `x * z % y` if the range of `x * z` "does not overflow"; a product that
  overflows as a signed but not as an unsigned number has such a range (`C92_mulRem_bad`; right if the corner products fit, `C92_mulRem_corners`).
* **C93** `SSA/RangeAna.lean`, `SSA/RangeAnaEx.lean`: the transfer functions of IntegerRangeAnalysis on the functions of `SSA/Sem.lean`. A visit of an instruction, of a phi, or of a phi for its increment
  intersects one range; the model visits in any order, any number of times (so the work list, its order and `maxEnqueueCount` do not matter). Proof: each visit keeps "there is an invariant of the registers, kept by all
  phi entries and instructions, that implies that the ranges hold"; for the low bits of counters the invariant also speaks of the incremented value. Not modelled: contextual facts, SCEV, calls, GEP, arguments.
  Finding 90: from "`x % y` is not negative and `y` is positive" the analysis concludes that `x` is not negative (lines 386-389); `-4 % 2 = 0` (`srem_context_bad`). The first fact may come from an array index.
  Finding 91: the facts of dead branches make ranges contradictory, after which `sync` may answer anything (C01); a phi mixes such a range with those of executed code (`Fine` excludes it).
* **C94** `SSA/RangeCtx.lean`, `SSA/RangeCtxEx.lean`: C93 with the facts of branches and switches (`mContextualRanges`) and reads that intersect with facts of dominating blocks. `RunInv` is `PointInv` that also
  knows which target a terminator goes to. A fact about `x` recorded for `t` is kept as "in blocks dominated by `t`, `x` satisfies it": it is established on the one edge into `t` (there the comparison has the value that its
  operands give it *now*, by the SSA equations `Eqns`), and `x` is not computed again in blocks dominated by `t`, because its definition strictly dominates `t`. Which facts a read uses (depth, number) is arbitrary.
  Finding 92: the code takes `cfg.predecessors(target).size() == 1` for "only this case leads here", but several cases, or a case and the default, of one switch may share the target: in `case 5: case 7:` both facts are
  recorded for the target (`switch_shared_bad`), their intersection is contradictory. `CVisit.switch` requires that the case is the only one.
* **C95** `IR/ValueInSet.lean`: ValueInSetCombine. The search (`State`, `runBlock`) is an invariant over the block from the last to the first instruction: the target is true iff all unsolved values are true and the root differs from all
  compared constants; the code is a recursion over the sections from the last one. Shifts by too much are an arbitrary function (`Shift`).
  Finding 93: a comparison of another value in the conjunction is erased from the unsolved values before its left side is looked at, and the failure is ignored: `y != 1 && x != 5 && x != 6 && x != 7 && x != 9` (with the comparison of `y`
  first in the block) becomes a test of `x` only (`inset_drop_bad`); the code is also put in front of the comparison of `y`, possibly before `x` is computed. Finding 94: `x - min` may wrap around for very negative `x` and is then taken for a
  distance: with `{5, 6, 7, 64}` and 64-bit registers `INT_MIN` is said to be in the set (`inset_wrap_bad`).
* **C96** `IR/Reassociate.lean`: Reassociate as a relation: operands of an instruction are flattened (`Flat`), sorted and merged (`Collect`, any order, any choice of merges), expanded (`powList` is `pow`) and combined (`Comb`, any order; this covers
  `earlyCombineCmp` and the 512 limit). Each operation is a commutative monoid; the invariant of `map` is that the operand list has the value of the instruction. Simplified: a Mul made from equal summands may be used in
  a later Mul (in the code `map.at` throws for it); positions are not modelled.
  Finding 95: multiplicities are `uint32_t`: 32 squarings of a value in a row in one block give multiplicity 0, nothing is left to combine and `reduction` is null (assertion, otherwise null dereference; `reassoc_null_bad`), and `x^(2^32+1)`
  becomes `x` (`reassoc_count_bad`). Finding 96: a Mul that replaced `x + x` is in the block but not in `map`, so `map.at` throws when a later Mul uses it (if ArithmeticReduce has not turned `x + x` into a shift before).
* **C97** `SSA/PtrAlign.lean`, `SSA/PtrAlignEx.lean`: PointerAlignmentAnalysis in the framework of C93 (`Kept`: invariants of all runs; visits in any order). The claim for a phi is proved together with that for the pointers advanced from it
  by constants. `low` is `z & -z` cast to `uint32_t`. Assumed: registers hold addresses aligned for their type (the analysis starts with this), alignments are powers of two, indices are 32-bit integers.
  Finding 97: for an index `{0,+,b,...}` the analysis takes `b` for a factor of the index although further coefficients (`{0,+,4,+,2}` is `i*(i+3)`) may break this (`align_scev_bad`).
* **C98** `IR/SimpleValue.lean`: SimpleValueAnalysis function by function (`extract`, `invalidate`, `replaceVal`, `update`, `seed`, `next`, `getLast`), LoadReduce within a block (`reduce`) and the removal of self assignments (`dropSelf`).
  One execution of a block is a valuation of its names and a sequence of memories (`Run`); the table is right about the memory after every instruction (`next_inv`), so the passes keep exactly the executions. Hypotheses: alias and base results true of the execution (`Facts`), no AtomicAdd (or the fixed analysis).
  Finding 98: the analysis keeps the value it knows for an address when an AtomicAdd changes that address: `invalidate` skips the entry of the address itself, and no new value is entered. LoadReduce replaces a load after the AtomicAdd by the value from before it (`SimpleValue.Ex.atomic_bad`). (Also: `traceInterProceduralArg` of PointerBaseAnalysis traces the parameter instead of the argument, and so never finds a base.)
* **C99** `IR/PtrBase.lean`: PointerBaseAnalysis (`init`, `phiBase`, `baseOf`, `visit`, `bases`, for every order in which the queue is emptied); a trace semantics of pointers with provenance (`Trace`). Every entry agrees with the
  entries it was computed from (`bases_agrees`), so every value a pointer takes points into its base; this is what C98 assumes of bases. The bases of arguments are a hypothesis (interprocedural tracing and the rule for a unique pointer argument are not modelled).
* **C100** `IR/StoreOnly.lean`: removeStoreOnlyAlloca (`storedTo`, `badUser`, `erases`, `interested`, `removed`) on top of C99; runs (`Flow`) in which loaded pointers point into the allocation only if such a pointer has escaped. The names that point into it are the
  allocation and GEPs with it as base (`flow_names`), and no load, call or other instruction has one of these as operand.
  Finding 99: a pointer into the allocation that is computed by a GEP and then stored (as the value) does not rule the allocation out: `interested.erase` is called with the GEP, not with its base, and a Store is an accepted user of a GEP; the stores are removed although the allocation can be read through the stored pointer (`store_gep_bad`).
* Not modelled here: types, debug info, stateful analysis caching, intrinsic-specific behaviour.

### Machine code (`Mir/`)
Model: CodeGen/MIR.hpp functions as lists of instructions with def/use register operands, implicit argument
registers and call clobbers; the meaning of opcodes is a parameter (relation). Observations: the instructions
executed and memory after each.
* **C42** LiveInterval.cpp: stage 1/2 fixpoint = path liveness; stage 3 segments cover live points.
* **C43** the simplify/select phases of GraphColoringRegisterAllocator.cpp for any heuristic.
* **C44** the whole successful allocation: interference graph (including physical registers around calls and
  argument groups) + colouring + rewriting; bisimulation between the function and its rewritten version.
* **C45-C49** every pass of Peephole.cpp: `Obs.lean` defines what can be seen of a run (visible instructions and the
  memory after each) and `Same`; `Rewrite.lean` reduces an in-place rewriting to a relation on registers at each
  program point; `Scan.lean` does so for block-local scans with a state. `Flags.Ok` says that the instruction flags
  are true of the opcode semantics; the theorems quantify over all such semantics. C47 is partial, with witnesses.
* **C50** Scheduler.cpp: dependence construction (`buildDeps`) and list scheduling (`topDown`) against an arbitrary
  processor model. `buildDeps_cov`: every pair of conflicting instructions is connected; `scheduleOrder_spec`: the order
  is a linear extension; `Swap.lean`: exchanging independent neighbours is invisible; `reorder_same`: a linear
  extension is reached by such exchanges.
* **C51** SimplifyCFG.cpp on laid-out code (`Flat.lean`: labelled blocks in layout order, falling through; a run walks
  the instructions; jumps may stand anywhere in a block). Each of the eight passes is a function `Code -> Code x Bool`
  returning the `modified` flag. `Clo`/`Match`/`Sync` is a simulation up to jumps taken on either side; `edit_same`
  covers rewriting block ends. The driver loop is `untilSame n` for any number of rounds; the theorem speaks of every
  result it can give, and `CfgEx.self_loop_hangs` shows it does not always give one. The peephole passes called in the
  loop are a parameter that must itself be sound (C45-C50 through `Bridge.lean`).
* **C52** TailDuplication.cpp with an arbitrary profitability oracle, and the application of a layout in
  BlockLayoutOpt.cpp for an arbitrary permutation with the entry first (`layoutFix`, `place_same`).
* **C53** ICF.cpp for arbitrary hash functions with non-zero block hashes.
* **C54** ISelInfo.cpp `selectSDiv32ByConstant` with all `uint32_t` arithmetic modulo 2^32 (loop invariant: quotients and
  remainders of 2^p; the loop ends by p = 62; the multiplier fits 32 bits), and the RISC-V and ARM replacement sequences
  as functions on 64- and 32-bit words (`Isel/Rv.lean` is the specification of the RV64 instructions). Proof: Granlund-Montgomery
  style rounding argument on naturals, lifted to bit vectors. The cost test (`isSDivExpandProfitable`) is ignored: the claim
  holds whenever the expansion is chosen.
* `Bridge.lean`: `same_lay` connects the block view (C44-C50) and the layout view (C51-C53).
* Not modelled: copy coalescing hints other than as heuristic choice, operand sub-types beyond one class per
  register.
* **C55** `Isel/Tree.lean`: typed expression trees over 64-bit registers, generic operations with their undefined cases,
  RISC-V instructions.  `Isel/Rules.lean`: one constructor per integer pattern of RISCV.yml and per rewriting of
  `legalizeInst`; `Step` closes them under contexts.  Pattern order, profitability and one-use conditions are dropped (the
  relation allows more than the code does).  Proof: `Ok` (value, types, encodability) is preserved by each rule
  (`Rule.sound`) and each context (`Step.sound`).  `Branch.lean`: the same for conditional branches.  `Complete.lean`: every
  supported typed tree can be selected completely.  Not modelled: floating point, addressing modes, loads and stores,
  the csmith-only patterns that can never fire.
* **C56** `Isel/Const.lean`: straight-line code over registers, the six-way split of constants in `preRALegalizeInst`, the
  `InstLoadImm` patterns, `emitImm`, and the two select expansions as blocks with branches.  Proof: arithmetic modulo 2^32 / 2^64
  (`hi20_spec`, `ctz64_dvd`), then execution of the blocks.

### RISC-V peephole optimizations (`Rvp/`, Target/RISCV/RISCVScheduleModel.cpp)

`Sem.lean` is the machine (specification): registers, byte memory, stack objects, symbols, branches, calls, and executions
of whole functions (`Runs`). Floating point, other instructions and calls are uninterpreted functions in `Env`.

* **C57** `Peep.lean`, `PeepProps.lean`, `ImmProps.lean`: `simplifyOpWithZero`, `removeSExtW`, `largeImmMaterialize`; the block
  ends in the same state (exact equality), and new immediates are encodable.
* **C58** `Peep.lean`, `BrProps.lean`: `removeDeadBranch` (block equality), `branch2jump` (function level, both settings of
  `endsWithTerminator`).
* **C59** `Relax.lean`, `RelaxProps.lean`, `RelaxSim.lean`: `relaxWInst` for any order of visiting the hash map; lockstep
  simulation where relaxed registers agree in the low half only.
* **C60** `Mem.lean`, `MemProps.lean`, `FoldProps.lean`: `earlyFoldStore`, `earlyFoldLoad`, `foldStoreZero`; byte-level memory
  lemmas and an induction over the scan with the pending access as part of the state.
* `Ex.lean`: the passes at work, hypotheses met, and witnesses outside the hypotheses.
* Not modelled here: `earlyFoldDoubleWordCopy`, and `expandMulWithConstant` (its arithmetic is C15/C16).

### The front end (`Fe/`, Frontend/EmitIR.cpp, IR/IRBuilder.cpp)

`CSem.lean` is the specification: syntax trees as the SysY parser builds them and what they mean according to C11, with
mathematical integers, scopes, objects, undefined behaviour, an arbitrary outside world, and an iteration bound that only
limits how far we look (`source_det`, `source_total`). `Emit.lean` transcribes EmitIR.cpp. `Ir.lean` gives the meaning of
the emitted instructions as an instance of the SSA language of C32-C41 with the arithmetic of C24.
* **C61** `Conv` (values and bit patterns), `EmitInv`, `EmitMono` (what emission may change in the builder), `Rel`, `State`
  (source and target states), `ExprSim`, `ExprMain*` (expressions), `StmtMono`, `StmtState`, `StmtSim`, `StmtMain*`
  (statements), `FuncSim`, `Correct`, `Behave` (`C61_function`). Forward simulation between source states and program points
  inside blocks; one stack slot stands for the newest of the objects a declaration creates.
* **C62** `Prog.lean`: induction over the call depth with C61 for each function.
* **C64** `WfInv`, `WfExpr`, `WfStmt`, `WfFunc`: an invariant of the builder gives SSA form of everything reachable in the emitted
  function (dead code may use cut-off instructions), so BlockEliminate followed by the verifier accepts it.
* **C65** `Opt.lean`: BlockEliminate, PhiEliminate, SimpleCSE, NoSideEffectEliminate, SimplifyBranch composed with C61. GVN is left
  out: its speculation hypothesis (division does not trap on the types it is used with) needs types, which the opcodes of `irL`
  do not carry. `alloca` counts as an instruction with side effects (NoSideEffectEliminate.cpp would also drop unused ones).
* **C68** `SlotUse.lean`, `M2.lean`: what the front end emits meets the hypotheses of C67, so C61, C63, C67 and C65 compose.
* `Ex.lean`, `OptEx.lean`: a function with shadowing, arrays, a short circuit, `continue`, events; an endless function; a recursive program.
* Not modelled: lexing and parsing, floating point, pointers, address-of, structs, array initialisers, arrays as arguments,
  `switch`, `goto`, strings, strict mode. `switch` was read: see disagreements 48-50.

## Not expressible or out of scope

* Floating-point rewrites (C++ host arithmetic), concrete ISA encodings and assembler text, parsing, the TAC
  interpreter's host behaviour, timing and performance claims.

## Known disagreements between code and property (found while modelling)

1. `IntegerRange::sync` on an empty range can make a value a member again (`C01_sync_empty_witness`).
2. `sdiv` of a full range by {-1} loses values (`C06_sdiv_full_false`).
3. `abs` of [INT_MIN, x≥0] fails its debug assert (`C07_abs_assert_fails`); the release build is sound.
4. `isEmpty` has its comparison reversed (`C09_isEmpty_wrong`).
5. `shl` with shift ranges outside [0,31] shifts host integers too far; only in-range shifts are claimed.
6. LabelAllocator: the texts of `a` with id 1 and `a1` coincide (`C12_text_collision`).
7. StatelessCache keys two 32-bit arguments by sign-extending the second: collisions
   (`C22_key_collision_witness`); a nested call may re-key the slot of the outer one
   (`C22_nested_rekey_witness`).
8. `cmmcParallelFor` overflows near INT_MAX (`C19_overflow_witness`).
9. ArithmeticReduce.cpp lines 181, 443 (INT_MIN), 458-466, 509, 736, 749 (8 bits), 1051, 1194/1200, 1285-1330:
   the `C26_bad_*` witnesses. Also 1162-1190 lacks a type-equality check (types are not in the model).
10. MultiplyByConstant: `1 << i` reaches 63 for odd factors above 2^62; the cost limit may be exceeded by one
    (`C16_slack_witness`).
11. `DominateAnalysisResult`: `mReservedOrder.reserve` followed by `reverse_copy` into `begin()`; `reversedBlocks()`
    is unusable.
12. `StructType::getSize` has no tail padding: misaligned array elements (`C33_gep_misaligned_witness`); the
    bounds assert of `getFieldOffset` is off by one.
13. `ArenaAllocator::deallocate` passes the element count for the byte size (harmless).
14. 8-byte aligned locals in MIPS/ARM leaf functions (alignment 4) fail a debug assert
    (`C18_overaligned_local_fails`).
15. `insertPrologueEpilogue` assumes that the entry block is not a jump target (hypothesis of C34).
16. `ConstantFloatingPoint::isEqual` equates 0.0 and -0.0, so ConstantMerge may replace one by the other; folding
    `srem` of INT64_MIN by -1 is undefined on the host; two floating-point predicates reach
    `reportUnreachable` when folded (`C36_fold_fcmp_total` states which are handled).
17. NoSideEffectEliminate dereferences null on indirect calls.
18. `Function::verify` accepts phi operands defined in dead blocks (`C38_dead_operand_accepted`) and phis in the
    entry block.
19. PhiEliminate in unreachable loops can break the in-block order (C40 assumes reachability).
20. `isMovableExpr`/`isNonZero` lets `x / -1` be speculated: hoisting can introduce an INT_MIN / -1 trap
    (hypothesis of C41).
21. LiveInterval.cpp stage 1 records definitions in operand order, so `v = op v` with no earlier write in the
    block is not an upward-exposed use (`C44_hidden_use_witness`). No pass is known to emit it.
22. GraphColoring spill placement reads operand flags of the spilled instruction while scanning its neighbours
    (lines ~664, ~707).
23. Read but not (yet) modelled: ForwardBranch removes a phi source for an edge that still exists; Branch2Switch
    skips side effects of intermediate compare blocks; Select2Branch moves a load past stores; PhiMerge casts a
    switch terminator to a branch.
24. `deadInstElimination` (Peephole.cpp:470-521) renews the version of the first register an instruction writes only;
    a flag-setting instruction (`InstFlagMultiDef`, ARM `ADDS`) leaves a stale version of the flag
    (`deadInstElimination_multi_witness`). It also never reports a modification.
25. `machineConstantCSE` (325-375) does not notice that the register holding the constant was overwritten in the
    block (`machineConstantCSE_overwrite_witness`).
26. Spill insertion (GraphColoringRegisterAllocator.cpp): rematerialisation erases an instruction it reads later; a
    spilled in-stack argument with several definitions loses all of them.
27. `redirectGoto` reports a modification whenever a branch goes to a block that only jumps, also if that block jumps to
    itself: `simplifyCFG`, `simplifyCFGWithUniqueTerminator` and the last loop of `identicalCodeFolding` never end on
    a function containing `l: goto l` (`CfgEx.self_loop_hangs`, `CfgEx.self_loop_hangs_unique`).
28. `isIdentical` (ICF.cpp:26-49) checks that the successors of one block are successors of the other, not the
    converse; only the xor of the pointer hashes rules out the difference. With a pointer hash of 0 the fold is wrong
    (`CfgEx.f5_differs`); C53 assumes hashes are not 0.
29. `sfbOpt` (SimplifyCFG.cpp:331) takes `back()` of a block that may be empty. Jump tables are shared objects and would be
    retargeted twice if two jumps used the same one (not modelled).
30. RISC-V division by a constant whose magic number needs no shift (3, 6, ...): `buildSRAIW` returns the zero-extended
    high half and the final `ADD` leaves a register that is not sign extended (`rv_div3_not_sign_extended`: `-3 / 3` is held as
    0xFFFFFFFF), although comparisons, branches and i32-to-i64 extensions on RISC-V rely on sign extension.
31. Division by `1 << s` in a register: wrong for s = 31 and dividend INT_MIN on both targets (`div_shl31_wrong`).
32. `lower(SelectInst)` (Lowering.cpp:930-945) turns `select x < 0, y, 0` into `(x >> (width(y)-1)) & y` with the width of `y`,
    not of `x` (read, not modelled).
33. SHxADD patterns (RISCV.yml:485-571) have no type condition: at `Int32`, when the sum wraps, the register is left
    unextended (`shadd_i32_wrong`; exact when it does not wrap, `shadd_i32_exact`).
34. `isNotImm` and `isNegativeOne` (RISCVISelInfo.cpp:249-254) look at the low 32 bits of the immediate: at `Int64`
    `b ^ 0xffffffff` is compiled as `~b` (`andn_i64_wrong`) and `a > 0xffffffff` as `a >= 0` (`branch_gtm1_wrong`).
35. XNOR on booleans gives -1 or -2 (`xnor_bool_wrong`).
36. `SRLIW (SRLI x 32) 0` is merged to `SRLI x 32`, which does not sign extend (`srlw0_wrong`).
37. `SLLI/SLLIW k (SRAIW k x)` becomes a mask even if `x` has more than 32 significant bits (`shiftMask_wrong`).
38. A select on `x ^ 1` is inverted without checking that `x` is a boolean (`selInv_wrong`).
39. Signed comparisons, SMIN/SMAX and SExt of booleans use the register value 1 for the one-bit value -1
    (`slt_bool_wrong`, `sext_bool_wrong`).
40. Comparing `Int8`/`Int16` with an immediate by `<=` or `>=` aborts in `getMaxSignedValue` / `getMinSignedValue`; a select
    with an immediate that does not fit 32 bits aborts in `emitImm`; truncation to `Bool` aborts (read, not modelled).
41. `val32 - lo` in `preRALegalizeInst` overflows `int32_t` for constants from 0x7ffff800 (undefined behaviour in the
    compiler; the wrapped result is right).
42. `isWProvider` (RISCVScheduleModel.cpp:991-993) accepts a logical shift right by exactly 32, whose result is zero, not sign,
    extended: `removeSExtW` drops a needed extension (`removeSExtW_srl32`), `relaxWInst` has the same problem.
43. `largeImmMaterialize` computes `w >> k` arithmetically but emits the logical shift: wrong for negative constants
    (`largeImm_negative`), and keeps using a register after it was written again (`largeImm_rewritten`); it runs out of
    SSA form.
44. `isWUser` counts the address of a store and the second operand of `ADD_UW` as 32-bit uses (`relaxWInst_address`).
45. `foldStoreZero` does not check that two stack slots are adjacent, only their residues modulo 8: zero stores to offsets 0
    and 12 of an array become one store to offsets 0 to 7 (`foldStoreZero_far`).
46. `earlyFoldStore` / `earlyFoldLoad` do not notice that a base register was written between the two accesses
    (`earlyFoldStore_clobber`, `earlyFoldLoad_clobber`); they also run out of SSA form. `addressMap` is never invalidated.
47. `earlyFoldDoubleWordCopy` skips 32-bit loads with several uses without closing the window, so the second store can
    move above a load of the same place (read, not modelled).
48. A `switch` without `default` (EmitIR.cpp:2109-2123): the default block stays empty, so the fix-up makes it return; no
    match returns (an undefined value) from the function instead of continuing after the switch (read, not modelled).
49. Control that falls through into `default:` is lost: `CaseExpr::emit` (2145-2152) moves to the default block without a
    branch, the previous case then returns (read, not modelled).
50. `switch` does not promote its operand: a case label is truncated to the type of the operand, so `case 456` matches the
    `char` 200; `continue` in a `switch` outside a loop branches to a null block (read, not modelled).
51. A non-void function (`main` too) that reaches its end returns an undefined value; C99 makes `main` return 0
    (`Fe.result`).
52. `int x = x;` reads an outer `x`; `if (c) int x = 1;` is accepted and declares `x` in the enclosing scope, where it is
    visible although it may never have been initialised (this is why C61 asks for C's grammar, `Stmt.wf`).
53. Type names ending in `_t` that are not fixed-width integers (`size_t`) abort the compiler (EmitIR.cpp:1430-1446).
54. Constant folding in the front end computes in `intmax_t`: `INT64_MIN / -1` crashes the compiler, 64-bit overflow is
    undefined in the compiler; both only for source programs that are undefined themselves.
55. Function emission leaves code behind a `return` in its block cut off while blocks created later still use it; the debug check at
    EmitIR.cpp:253-257 fails for `return 0; return (a + 1) + (a && b);` (`k_rejected`; accepted after BlockEliminate, `k_eliminated`).
56. `removePhi` stops at the first phi without an entry for the block; on code the verifier accepts, BlockEliminate then leaves an
    entry for a block that is gone (`mixed_rejected`). C63 therefore asks that the phis of a block name the same predecessors.
57. At -O3 NoReturnCallEliminate followed by UnreachableEliminate and SimplifyPartialUnreachableBranch deletes calls of functions
    that do not return, with everything printed in front of them in the block (`exit_lost`); endless loops are deleted
    (`spin_group`, `spin_diverges`). NoReturn is inferred for every function without `ret` (FunctionAttrInfer.cpp:32-40).
58. NoReturnCallEliminate reports a modification each time it sees the call, so the iteration wrapper (TransformPass.cpp:450) always
    runs to its limit on such functions.
59. `filterPromotable` (ScalarMem2Reg.cpp:183-230) has no case for GEP and `ret`: a slot whose address reaches one of these stays
    on the list. C67 asks that slots are used as their types allow (`SlotUses`).
60. `mIncompletePhis.erase(iter)` (ScalarMem2Reg.cpp:126) uses an iterator that the insertions made while sealing may have
    invalidated by a rehash (read, not modelled).
61. ScalarMem2Reg recurses without end on dead single-predecessor cycles; C67 asks that every block is reachable (BlockEliminate
    runs first).
62. The `SRem` rule of IntegerRangeAnalysis.cpp (371-375) infers that the dividend is not negative from the remainder being 0 (x = -4,
    y = 2); `getch` is given the range [0, 127] although it may return -1 (read).
63. ForwardBranch.cpp:118-126 compares the two targets of a branch before forwarding the first and not before forwarding the second. If both
    have become the same block with a phi, `removeSource` deletes the entry of an edge that is still there (`C71_forwardBranch_wrong`).
64. `PhiInst::replaceSource` (Instruction.cpp) emplaces the new entry and then erases the old one by an iterator that a rehash may have
    invalidated; `hasSamePhiValue` and the assertion in `retargetBlock` compare use objects, which are never equal, instead of values (read).
65. LICM takes the terminator of a predecessor for a `BranchInst` even if it is a switch, and hoists instructions that can trap above calls
    that may not return (read).
66. `applyInline` gives the argument phis one entry, for the block of the call. If the entry block of the callee is the target of a jump, which the
    verifier accepts, the phis have no value on that edge (C72 asks for `noEntry`).
67. TailCallEliminate's `getIdentity` aborts the compiler for accumulators combined with SMax or SMin (read).
68. CodeSink moves an instruction into the single-predecessor block its users share, also into the entry
    block when that is a jump target: the result reads a value before it is computed (`sink_into_entry`, `sink_entry_wrong`; the verifier
    accepts the input). C74 asks for `EntryFirst`.
69. The second look-up of `moveTargetSet` in CodeMove.cpp never finds anything (read): chains of moved instructions are handled by the order.
70. TailCallEliminate replaces a recursive call in the entry block by `unreachable`: output of the function, which never returns, may be lost
    (`forever_after`); the phis of the former successors keep their entries for the entry block (read: C77 shows the result is in SSA form because they are dead).
71. `handleBlock` of TailCallEliminate reports a modification in its second case even if `eliminateCall` gives up; the return has then been duplicated (modelled).
72. InstReorder counts divisions as movable (`isMovableExpr(inst, false)`) and may put one in front of a call that does not come back (`exits_wrong`).
73. Branch2Switch drops the instructions of the blocks that the switch skips: it only checks that their values have no users other than the terminator, not that they have no side effects.
    `if(x==1) ...; else { putint(0); if(x==2) ...; else if(x==3) ...; else if(x==4) ...; }` loses the output on targets with a native switch (`C82_linkFree_needed`).
74. The same check accepts skipped blocks with unused phis; the phis keep their entry for the head, which is no predecessor any more (`LinkFree` excludes it).
75. Branch2Switch computes `maxVal - minVal` in `intmax_t`, which overflows for keys of opposite sign near the limits of i64 (modelled with unbounded integers: `dense` is arbitrary).
76. DeadArgEliminate and IPConstantPropagation look at `Function::users()` only: a user that is not a call (`FunctionPtr`) is an error in the first (cast to `FunctionCallInst`, operand erased by index)
    unless the function is marked ParallelBody, and stops the second.
77. FunctionAttrInfer's `hasLoad` ignores calls through pointers while `hasWrite` and `hasSideEffect` do not: a function that only calls through a pointer would get NoMemoryRead (`attr_indirect`).
    The frontend emits no such calls.
78. NoRecurse only says that the function does not call itself directly (mutual recursion is not excluded), and none of the attributes says that calls end: an endless loop without output is Stateless.
79. PointerAddressSpaceAnalysis does not count new tags of `alloc`, `select` and `phi` as a modification, so values later in the loop's first round may stay untagged (fewer attributes, not wrong ones);
    a pointer phi without operands is tagged InternalStack.
80. StoreEliminate takes an AtomicAdd to the address for an overwriting store although it reads the old value: `g = 1; atomic_add(&g, 1);` loses the first store (`Ex.atomic_needed`).
81. SCEVAnalysis divides initial value and increment of `{a,+,b}` for `x / d` when `d` divides `b`; division truncates, so `i / 2` for `i = -1, 1, 3, …` is called `{0,+,1}` but is `0, 0, 1, …` (`Ex.div_wrong`); LoopStrengthReduction then computes wrong values. It is also wrong when `x` wraps around.
82. SCEVAnalysis computes with `intmax_t`: overflow of the coefficients of a product is undefined behaviour of the compiler (the model computes exactly).
83. FinalValueReplacement replaces the induction variable after a loop by its bound, which holds only if the loop leaves exactly at the bound: `do … while(next < bound)` entered with `initial >= bound` runs once and leaves with another value (not modelled).
