{"id": "C01", "title": "Canonicity of handles", "statement": "In every state of a manager, two live BDD handles compare equal (Cal_BddIsEqual / BDD::operator==) exactly when they denote the same Boolean function of the manager's variables; in particular the constant handles are the only handles of the constant functions.", "quantifier": "all manager states satisfying the reachable-state invariant, all pairs of edges/handles, all Boolean functions over any number of variables", "why_tests_cant": "A test compares finitely many BDDs in finitely many states; canonicity is a claim about all pairs in all histories.", "anchors": ["src/calHashTable.c: CalUniqueTableForIdFindOrAdd", "src/calInt.h: CalBddIsEqual", "src/cal.c: Cal_BddIsEqual"]}
{"id": "C02", "title": "Binary Boolean operations", "statement": "Cal_BddAnd, Or, Nand, Nor, Xor and Xnor always terminate with a handle denoting exactly the conjunction, disjunction, ... of the operands' functions.", "quantifier": "all well-formed manager states, all operand pairs, all variable counts and orders, all assignments", "why_tests_cant": "Unit tests cover particular BDDs and orders; the breadth-first request queues have unboundedly many shapes.", "anchors": ["src/calBddOp.c: Cal_BddAnd..Cal_BddXnor, CalBddOpBF", "src/calApplyReduce.c: CalHashTableApply, CalHashTableReduce", "src/calTerminal.c"]}
{"id": "C03", "title": "If-then-else", "statement": "Cal_BddITE(f,g,h) always terminates with a handle denoting (f and g) or (not f and h).", "quantifier": "all well-formed states, all triples of operands", "why_tests_cant": "The complement normalisation and three-operand cofactoring have too many interacting cases to enumerate over all BDDs.", "anchors": ["src/calBddITE.c: CalBddOpITEBF, CalHashTableITEApply", "src/calTerminal.c: CalOpITE", "src/calInt.h: CalITERequestNodeGetCofactors"]}
{"id": "C04", "title": "Multiway operations", "statement": "Cal_BddMultiwayAnd/Or/Xor of a non-empty array of up to 1024 BDDs denotes the conjunction/disjunction/parity of all of them, whatever the array length, order and repetition of elements.", "quantifier": "all well-formed states, all arrays of BDDs (any length accepted by the code)", "why_tests_cant": "The pairing tree with a floating odd element and the pipelined request queues depend on the length and on the shapes of all operands at once.", "anchors": ["src/calBddOp.c: BddMultiwayOp, BddArrayToRequestNodeListArray, CalRequestNodeListArrayOp"]}
{"id": "C05", "title": "Pairwise operations", "statement": "Cal_BddPairwiseAnd/Or/Xor of an even-length array returns, at position i, the operation applied to elements 2i and 2i+1.", "quantifier": "all well-formed states, all even-length arrays", "why_tests_cant": "Only some combinations of top variables across pairs expose a wrong start level; tests that happen to use decreasing top indices pass.", "anchors": ["src/calBddOp.c: BddArrayOpBF, Cal_BddPairwiseAnd, Cal_BddPairwiseOr, Cal_BddPairwiseXor"]}
{"id": "C06", "title": "Negation, identity and regular form", "statement": "Cal_BddNot denotes the complement, is an involution and never changes the store; Cal_BddIdentity denotes the same function; Cal_BddGetRegular returns the operand or its complement, the same for f and not f.", "quantifier": "all states, all handles", "why_tests_cant": "Universal algebraic laws.", "anchors": ["src/cal.c: Cal_BddNot, Cal_BddIdentity, Cal_BddGetRegular", "src/calInt.h: CalBddNot"]}
{"id": "C07", "title": "Top variable and Shannon expansion", "statement": "For every non-constant f: Cal_BddIf is the variable of least index f depends on, and f = ite(If f, Then f, Else f), where Then and Else do not depend on that variable.", "quantifier": "all well-formed states, all non-constant handles", "why_tests_cant": "Must hold through every chain of complement edges.", "anchors": ["src/cal.c: Cal_BddIf, Cal_BddThen, Cal_BddElse, Cal_BddGetIfIndex, Cal_BddGetIfId"]}
{"id": "C08", "title": "Operations do not disturb existing BDDs", "statement": "Every operation leaves the function denoted by every previously existing BDD unchanged, and leaves the store reduced and ordered (no duplicate or redundant node, children strictly below parents).", "quantifier": "all operations modelled, all well-formed states, all existing edges", "why_tests_cant": "A stray in-place update shows up only for some third-party handle in some history.", "anchors": ["src/calApplyReduce.c: CalHashTableReduce", "src/calHashTable.c: CalUniqueTableForIdFindOrAdd"]}
{"id": "C09", "title": "Reference count encoding", "statement": "The 8-bit reference count scattered over tag bits of three pointer fields is read back exactly as written, does not disturb the node addresses or complement bits stored in the same words, saturates at 255 and is sticky there.", "quantifier": "all 64-bit field contents with 16-byte aligned addresses, all counts", "why_tests_cant": "2^192 field contents.", "anchors": ["src/calInt.h:754-863, 1064-1165 CalBddNodeGetRefCount, PutRefCount, IcrRefCount, DcrRefCount, AddRefCount"]}
{"id": "C10", "title": "Pointer tagging", "statement": "Then/else accessors return the stored child and complement bit, with the parent's complement folded in, for every aligned address and every setting of the tag bits; writing a child leaves count and mark bits unchanged.", "quantifier": "all 64-bit words with aligned addresses", "why_tests_cant": "2^64 words per field.", "anchors": ["src/calInt.h:616-752 CAL_BDD_POINTER, CAL_TAG0, CalBddGetThenBdd, CalBddPutThenBdd, marks at 1180-1212"]}
{"id": "C11", "title": "Reference counts are exact", "statement": "After every operation each node's count is either saturated or equals the number of its parents in the store plus the external references held on it, so no operation leaks or loses a reference.", "quantifier": "all well-formed states with exact counts, all operations modelled with counts", "why_tests_cant": "A lost or leaked reference shows only later, when a collection happens at an unlucky moment.", "anchors": ["src/calApplyReduce.c: CalHashTableReduce", "src/calHashTable.c", "src/calUtil.c: CalBddGetExternalBdd"]}
{"id": "C12", "title": "Garbage collection is safe", "statement": "Cal_BddManagerGC never removes a node reachable from a live handle or any other held reference; every live handle denotes the same function afterwards and the store stays well formed.", "quantifier": "all well-formed states with exact counts, all sets of live handles", "why_tests_cant": "Depends on the whole sharing graph; a wrong order or a missed decrement is visible only in particular graphs.", "anchors": ["src/calGC.c: Cal_BddManagerGC, CalHashTableGC"]}
{"id": "C13", "title": "Garbage collection is complete", "statement": "One call of Cal_BddManagerGC removes every node that is not reachable from a held reference or a saturated node (a single top-down pass suffices).", "quantifier": "all well-formed states with exact counts", "why_tests_cant": "Universally quantified over graphs; a bottom-up order would leave chains of garbage behind.", "anchors": ["src/calGC.c: Cal_BddManagerGC, CalHashTableGC"]}
{"id": "C14", "title": "Existential quantification", "statement": "Cal_BddExists(f) denotes the existential quantification of f over exactly the variables associated in the current association.", "quantifier": "all well-formed states with a valid cache, all f, all associations", "why_tests_cant": "Early cut-offs by last associated index and cache hits depend on history.", "anchors": ["src/calQuant.c: Cal_BddExists, BddExistsStep, BddDFStep"]}
{"id": "C15", "title": "Universal quantification", "statement": "Cal_BddForAll(f) denotes the universal quantification of f over exactly the associated variables.", "quantifier": "all well-formed states with a valid cache, all f, all associations", "why_tests_cant": "As for Exists.", "anchors": ["src/calQuant.c: Cal_BddForAll"]}
{"id": "C16", "title": "Relational product", "statement": "Cal_BddRelProd(f,g) denotes the existential quantification over the associated variables of f and g.", "quantifier": "all well-formed states with a valid cache, all f, g, all associations", "why_tests_cant": "As for Exists, plus the interplay of three opcodes in one cache.", "anchors": ["src/calQuant.c: Cal_BddRelProd, BddRelProdStep"]}
{"id": "C17", "title": "Computed-table transparency", "statement": "Whatever entries earlier operations left in the computed table, and whichever were evicted by collisions, rehashing or flushing, results are the same as with an empty table; lookups never return an entry for other operands or another operation.", "quantifier": "all cache contents reachable by inserts of correct results, all hash functions, all operands", "why_tests_cant": "Depends on the whole history of insertions and collisions.", "anchors": ["src/calCacheTableTwo.c"]}
{"id": "C18", "title": "Cache entries do not survive the nodes they mention", "statement": "After garbage collection no cache entry mentions a freed node, so a later node allocated at the same address can never be confused with the old one.", "quantifier": "all states, all caches, all collections", "why_tests_cant": "Needs address reuse at a specific slot.", "anchors": ["src/calCacheTableTwo.c: CalCacheTableTwoGCFlush", "src/calGC.c"]}
{"id": "C19", "title": "Generalised cofactor", "statement": "Cal_BddCofactor(f,c) agrees with f wherever c holds, for every satisfiable c; for a cube c it is the ordinary cofactor.", "quantifier": "all well-formed states, all f, all c not constant false", "why_tests_cant": "All pairs of BDDs.", "anchors": ["src/calReduce.c: Cal_BddCofactor, BddCofactorBF / BddConstrain step"]}
{"id": "C20", "title": "Reduce", "statement": "Cal_BddReduce(f,c) agrees with f wherever c holds and is never larger than f.", "quantifier": "all well-formed states, all f and c", "why_tests_cant": "All pairs of BDDs.", "anchors": ["src/calReduce.c: Cal_BddReduce"]}
{"id": "C21", "title": "Between", "statement": "Cal_BddBetween(fMin,fMax) contains fMin and is contained in fMax whenever fMin implies fMax.", "quantifier": "all well-formed states, all pairs with fMin implying fMax", "why_tests_cant": "All pairs of BDDs.", "anchors": ["src/calReduce.c: Cal_BddBetween"]}
{"id": "C22", "title": "Compose", "statement": "Cal_BddCompose(f,g,h) denotes f with the variable g replaced by h.", "quantifier": "all well-formed states, all f, h, all variables g", "why_tests_cant": "h may depend on variables above g, forcing a full ITE.", "anchors": ["src/calBddCompose.c"]}
{"id": "C23", "title": "Simultaneous substitution", "statement": "Cal_BddSubstitute(f) denotes f with every associated variable replaced simultaneously by its associated BDD.", "quantifier": "all well-formed states, all f, all associations", "why_tests_cant": "All functions and all simultaneous substitutions, in particular cyclic ones such as swaps.", "anchors": ["src/calBddSubstitute.c"]}
{"id": "C24", "title": "Variable renaming", "statement": "Cal_BddVarSubstitute(f) denotes f with every associated variable replaced simultaneously by its associated variable.", "quantifier": "all well-formed states, all f, all variable-to-variable associations", "why_tests_cant": "Includes order-violating renamings.", "anchors": ["src/calBddVarSubstitute.c"]}
{"id": "C25", "title": "Swapping two variables", "statement": "Cal_BddSwapVars(f,g,h) denotes f with the variables g and h exchanged.", "quantifier": "all well-formed states, all f, all pairs of variables in either order", "why_tests_cant": "Many cases: variables adjacent, distant, absent, or the same.", "anchors": ["src/calBddSwapVars.c"]}
{"id": "C26", "title": "Satisfying cube", "statement": "Cal_BddSatisfy(f), for f not constant false, is a cube that implies f; it has every variable at most once and only variables f depends on. Cal_BddSatisfySupport(f) is a cube that implies f, has every variable of the current association and other variables only if f depends on them. For constant false both return f.", "quantifier": "all well-formed states, all satisfiable f", "why_tests_cant": "All functions.", "anchors": ["src/calBddSatisfy.c: Cal_BddSatisfy, Cal_BddSatisfySupport"]}
{"id": "C27", "title": "Satisfying fraction", "statement": "Cal_BddSatisfyingFraction(f) is between 0 and 1; with at most 53 variables it is exactly the fraction of the assignments to all variables that satisfy f, with n variables it is within 3n*2^-53 of that fraction (assuming that double arithmetic rounds as IEEE 754 says).", "quantifier": "all well-formed states, all f", "why_tests_cant": "Number of assignments is exponential; every function.", "anchors": ["src/calBddSatisfy.c: Cal_BddSatisfyingFraction"]}
{"id": "C28", "title": "Intersects and Implies", "statement": "Cal_BddIntersects(f,g) is a BDD implying f and g which is constant false exactly when f and g are disjoint; Cal_BddImplies(f,g) implies f and not g and is constant false exactly when f implies g.", "quantifier": "all well-formed states, all pairs", "why_tests_cant": "The search stops early; a wrong cut-off needs specific shapes.", "anchors": ["src/cal.c: Cal_BddIntersects, Cal_BddImplies, BddIntersectsStep"]}
{"id": "C29", "title": "Support and dependence", "statement": "Cal_BddSupport(f) lists exactly, without repetition, the variables f semantically depends on; Cal_BddDependsOn(f,v) is true exactly when f semantically depends on v; all marks are cleared afterwards.", "quantifier": "all well-formed states, all f, all v", "why_tests_cant": "Marking traversals over shared graphs; a stale mark breaks a later call.", "anchors": ["src/calBddSupport.c"]}
{"id": "C30", "title": "Size", "statement": "Cal_BddSize(f,0) is the number of distinct functions obtained from f by fixing the first k variables of the order, for any k (f itself and the constants included); Cal_BddSize(f,1) counts a function and its complement once, which is the number of nodes of the diagram. Cal_BddSizeMultiple counts the same for several functions together. Size is invariant under negation; marks are cleared afterwards.", "quantifier": "all well-formed states, all f (or arrays of f)", "why_tests_cant": "Two-bit marks on shared graphs with mixed polarities.", "anchors": ["src/calBddSize.c: Cal_BddSize, Cal_BddSizeMultiple"]}
{"id": "C31", "title": "Profile", "statement": "The level counts of Cal_BddProfile (and of Cal_BddProfileMultiple) sum to Cal_BddSize, entry i counts exactly the functions Cal_BddSize counts whose first variable has index i, and the last entry the constants.", "quantifier": "all well-formed states, all f", "why_tests_cant": "As for Size.", "anchors": ["src/calBddSize.c: Cal_BddProfile"]}
{"id": "C32", "title": "Cubes and node types", "statement": "Cal_BddIsCube(f) holds exactly when f is a conjunction of literals (f not constant false); Cal_BddType classifies constants, positive and negative literals exactly.", "quantifier": "all well-formed states, all f", "why_tests_cant": "All functions.", "anchors": ["src/cal.c: Cal_BddIsCube, Cal_BddType"]}
{"id": "C33", "title": "Creating variables", "statement": "Cal_BddManagerCreateNewVarFirst/Last/Before/After insert a new variable at the documented position, keep the relative order of the old variables, and change no existing function; the new variable denotes its own projection.", "quantifier": "all manager states with fewer than the maximal number of variables, all positions", "why_tests_cant": "All histories of insertions.", "anchors": ["src/calBddManager.c: CalBddManagerCreateNewVar, Cal_BddManagerCreateNewVarBefore/After"]}
{"id": "C34", "title": "Ids and indices", "statement": "In every reachable state, ids and indices are mutually inverse bijections, ids never change, and Cal_BddManagerGetVarWithId/WithIndex return the right variable or null when out of range.", "quantifier": "all sequences of variable creations and adjacent swaps", "why_tests_cant": "All histories.", "anchors": ["src/calBddManager.c", "src/calReorderDF.c: BddExchange", "src/calReorderBF.c: BddReorderSwapVarIndex"]}
{"id": "C35", "title": "Associations", "statement": "Cal_AssociationInit returns the id of an existing association exactly when its contents are the same, otherwise a fresh id; ids in use stay valid until their use count drops to zero; SetCurrent switches to exactly that association.", "quantifier": "all sequences of Init/Quit/SetCurrent", "why_tests_cant": "Counting and id reuse over arbitrary histories.", "anchors": ["src/calAssociation.c"]}
{"id": "C36", "title": "Temporary association", "statement": "Cal_TempAssociationInit/Augment/Quit make the temporary association map exactly the variables given last for each variable and nothing else, keeping the last-index bound valid.", "quantifier": "all sequences of Init/Augment/Quit", "why_tests_cant": "All histories.", "anchors": ["src/calAssociation.c: Cal_TempAssociationInit, Cal_TempAssociationAugment"]}
{"id": "C37", "title": "Dump/undump round trip", "statement": "Reading back what Cal_BddDumpBdd wrote, with the same variables, yields the same BDD; with another variable array of the same length it yields the BDD with the variables renamed position by position.", "quantifier": "all well-formed states, all f, all variable arrays covering the support", "why_tests_cant": "Shared-node labels, four index widths and polarity handling.", "anchors": ["src/calDump.c", "src/calPrint.c: CalBddNumberSharedNodes, CalBddMarkSharedNodes"]}
{"id": "C38", "title": "Undump rejects bad input safely", "statement": "Cal_BddUndumpBdd on any byte stream either returns a BDD or reports an error; it never writes outside its table of shared nodes.", "quantifier": "all byte streams", "why_tests_cant": "All malformed files.", "anchors": ["src/calDump.c: Cal_BddUndumpBdd, BddUndumpBddStep"]}
{"id": "C39", "title": "Adjacent variable exchange", "statement": "Exchanging two adjacent variables during reordering preserves the function denoted by every node that survives, keeps the store reduced and ordered for the new order, and keeps reference counts exact.", "quantifier": "all well-formed stores, all adjacent pairs of levels", "why_tests_cant": "In-place rewriting of shared nodes; correctness depends on the whole graph.", "anchors": ["src/calReorderDF.c: BddExchange, BddExchangeAux, SweepVarTable"]}
{"id": "C40", "title": "Trivial exchange only when variables do not interact", "statement": "The shortcut that swaps two levels without touching nodes is taken only when no live BDD has an edge between the two levels.", "quantifier": "all states, including BDDs held only by associations", "why_tests_cant": "Needs a BDD reachable only through an association or a saturated node.", "anchors": ["src/calInteract.c: CalInitInteract", "src/calReorderDF.c: BddExchange", "src/calReorderBF.c: BddReorderSwapVarIndex"]}
{"id": "C41", "title": "Interaction matrix indexing", "statement": "Setting and testing pairs in the packed triangular bit matrix behave like a set of unordered pairs: a pair tests true exactly when it was set, and every position is within the allocation.", "quantifier": "all numbers of variables, all sequences of set operations", "why_tests_cant": "Quadratically many positions for each of up to 65534 sizes.", "anchors": ["src/calInteract.c: CalSetInteract, CalTestInteract, CalInitInteract"]}
{"id": "C42", "title": "Exchange of adjacent blocks", "statement": "Exchanging two adjacent blocks of sizes n and m by adjacent swaps ends with the second block's variables, in order, before the first block's variables, in order, and every other variable unmoved.", "quantifier": "all block sizes and positions", "why_tests_cant": "All sizes; off-by-one in a doubly nested loop.", "anchors": ["src/calReorderDF.c: BddExchangeVarBlocks"]}
{"id": "C43", "title": "Sifting and window permutation never end worse", "statement": "Sifting a block ends at the best position it visited (within its growth bounds), and window permutation ends at the best of the permutations tried, so neither leaves more nodes than before.", "quantifier": "all size functions of the order, all start positions, all numbers of blocks", "why_tests_cant": "Depends on the whole cost landscape.", "anchors": ["src/calReorderDF.c: BddSiftBlock, BddReorderWindow2, BddReorderWindow3", "src/calReorderBF.c: BddReorderSiftToBestPos"]}
{"id": "C44", "title": "Variable blocks", "statement": "After any sequence of block creations and variable insertions the block tree's leaves partition the variables in order and nested blocks partition their parents; Cal_BddNewVarBlock never splits an existing block (it stops with a fatal error instead).", "quantifier": "all sequences of Cal_BddNewVarBlock and variable creations", "why_tests_cant": "All histories.", "anchors": ["src/calBlk.c: Cal_BddNewVarBlock, AddBlock, CalBddShiftBlock"]}
{"id": "C45", "title": "Pipelines", "statement": "A pipeline of provisional BDDs executes to exactly the functions obtained by the same operations one at a time.", "quantifier": "all sequences of pipelined creations and executions, all depths", "why_tests_cant": "Deferred execution in chunks over request queues.", "anchors": ["src/calPipeline.c"]}
{"id": "C46", "title": "Node limit and overflow", "statement": "When the node limit is exceeded an operation returns null, records an overflow that Cal_BddOverflow reports once and clears, and leaves all other handles denoting the same functions; with limit 0 it never overflows.", "quantifier": "all states, all limits", "why_tests_cant": "Depends on when the periodic check fires.", "anchors": ["src/calUtil.c: CalBddPostProcessing", "src/cal.c: Cal_BddOverflow, Cal_BddNodeLimit"]}
{"id": "C47", "title": "Garbage collection limit", "statement": "Cal_BddManagerSetGCLimit sets the limit to twice the node count, at least the minimum, and never above a non-zero node limit.", "quantifier": "all node counts and limits", "why_tests_cant": "Arithmetic over all values.", "anchors": ["src/calGC.c: Cal_BddManagerSetGCLimit"]}
{"id": "C48", "title": "Garbage collection mode", "statement": "After Cal_BddSetGCMode(m,0) no garbage collection happens until it is switched on again.", "quantifier": "all histories of operations after switching off", "why_tests_cant": "Every later operation must respect it.", "anchors": ["src/calGC.c: Cal_BddSetGCMode, CalBddManagerGCCheck", "src/calUtil.c: CalBddPostProcessing"]}
{"id": "C49", "title": "Hash tables are sets", "statement": "The chained hash tables (unique tables, request queues) find exactly what was added and not deleted, never hold duplicates, and lose or duplicate nothing when rehashed or shrunk, when garbage is collected from them, or when they are traversed to forward the children of their nodes.", "quantifier": "all sequences of find-or-add/delete/rehash, all hash values", "why_tests_cant": "All collision patterns.", "anchors": ["src/calHashTable.c", "src/calHashTableOne.c", "src/calHashTableThree.c"]}
{"id": "C50", "title": "Temporary opcodes never collide", "statement": "Operations under the temporary association never reuse a cache opcode that another operation could still have entries for.", "quantifier": "all histories of operations (any number)", "why_tests_cant": "Needs more than 57000 operations before a failure.", "anchors": ["src/calInt.h:436 tempOpCode", "src/calQuant.c", "src/calBddVarSubstitute.c"]}
{"id": "C51", "title": "Node allocation", "statement": "The node manager never hands out a node that is already in use, and every freed node becomes available again.", "quantifier": "all sequences of allocations and frees", "why_tests_cant": "All histories.", "anchors": ["src/calMemoryManagement.c", "src/calInt.h:475-573 CalNodeManagerAllocNode, CalNodeManagerFreeNode"]}
{"id": "C52", "title": "Block allocator", "statement": "Blocks handed out by Cal_MemGetBlock never overlap, lie inside memory obtained from the system, and freed buddies coalesce without losing memory.", "quantifier": "all sequences of allocations, frees and resizes", "why_tests_cant": "All histories.", "anchors": ["src/calMem.c"]}
{"id": "C53", "title": "Random numbers", "statement": "CalUtilRandom, after any seeding in range, always returns a value between 0 and 2147483561 and never indexes outside its shuffle table; both sub-generators compute multiplication modulo their prime exactly.", "quantifier": "all seeds in the valid range, all numbers of calls", "why_tests_cant": "2^31 seeds and unbounded sequences.", "anchors": ["src/calUtil.c: CalUtilSRandom, CalUtilRandom"]}
{"id": "C54", "title": "Default terminal transform", "statement": "The default transform of a two-word terminal value is an involution (128-bit two's complement negation): transforming a printed terminal value for a complemented edge twice gives back the value.", "quantifier": "all pairs of 64-bit words", "why_tests_cant": "2^128 inputs.", "anchors": ["src/calBddManager.c: BddDefaultTransformFn"]}
{"id": "C55", "title": "C++ handles balance references", "statement": "For every sequence of copies, moves, assignments (including self-assignment) and destructions of BDD objects, the use count of each handle equals the number of live objects holding it.", "quantifier": "all sequences of object operations", "why_tests_cant": "All histories.", "anchors": ["src/calObj.hh: class BDD"]}
{"id": "C56", "title": "Handles keep their meaning through any history", "statement": "Through any sequence of API calls - creating variables, Boolean operations, freeing handles, garbage collections - every handle that has not been freed denotes the function it denoted when it was returned.", "quantifier": "all sequences of API calls", "why_tests_cant": "The quantifier is over all histories.", "anchors": ["src/cal.h"]}
{"id": "C57", "title": "Reordering keeps all functions", "statement": "A depth-first reordering (Cal_BddReorder, or one triggered by an operation), by sifting or window permutation, leaves every handle, association and pipeline result denoting the same function, keeps the invariants every later call relies on, and rearranges variables only within reorderable blocks.", "quantifier": "all reachable states, all block trees, all growth and swap limits, both techniques", "why_tests_cant": "Rewrites and relocates every node of the graph.", "anchors": ["src/calReorderDF.c: CalBddReorderAuxDF, BddConvertDataStruct, BddReallocateNodes, BddConvertDataStructBack", "src/calReorderUtil.c: CalBddReorderFixUserBddPtrs", "src/calAssociation.c: CalReorderAssociationFix", "src/calPipeline.c: CalBddReorderFixProvisionalNodes"]}
{"id": "C58", "title": "Repacking keeps all functions", "statement": "Repacking nodes onto fewer pages after a garbage collection never runs out of places, leaves every handle, association, cached result, pipeline result and variable denoting the same function, and leaves no node and no usable free place on a page that is given back.", "quantifier": "all reachable states, all layouts of nodes on pages, all utilisation thresholds", "why_tests_cant": "Depends on the page on which each node lies, hence on the whole history.", "anchors": ["src/calGC.c: CalRepackNodesAfterGC", "src/calCacheTableTwo.c: CalCacheTableTwoRepackUpdate", "src/calInt.h:586 CalBddIdNeedsRepacking"]}
{"id": "C59", "title": "Breadth-first and depth-first quantification agree", "statement": "Above 2^19 nodes Cal_BddExists, Cal_BddForAll and Cal_BddRelProd use a breadth-first algorithm. In any state, with either algorithm, they succeed, return the BDD of the same quantified function, leave all other handles as they are and leave no request node or temporary cache entry behind.", "quantifier": "all reachable states, all operands and associations, all contents of the computed table", "why_tests_cant": "The breadth-first code only runs above half a million nodes, and depends on what the computed table holds.", "anchors": ["src/calQuant.c: BddExistsBFPlusDF, BddExistsBFAux, BddExistsApply, BddExistsReduce, BddRelProdBFPlusDF, BddRelProdBFAux, BddRelProdApply, BddRelProdReduce", "src/calCacheTableTwo.c: CalCacheTableTwoFixResultPointers"]}
{"id": "C60", "title": "Breadth-first reordering keeps all functions", "statement": "A breadth-first reordering, by sifting or by window permutation (Cal_BddReorder, or one triggered by an operation) ends without fault, leaves every handle, association and pipeline result denoting the same function, keeps the invariants every later call relies on, respects variable blocks and gives back all memory it no longer uses.", "quantifier": "all reachable states, all growth and swap limits, all limits on forwarding nodes, whatever is packed when", "why_tests_cant": "Moves nodes between levels and leaves forwarding nodes that are followed later; correctness depends on the whole graph and on when the clean-up runs.", "anchors": ["src/calReorderBF.c: CalBddReorderAuxBF, BddReorderVarSift, BddReorderSiftToBestPos, BddReorderSwapVarIndex, BddReorderFixForwardingNodes, BddReorderVarWindow, BddReorderWindow2, BddReorderWindow3, BddReorderFixAndFreeForwardingNodes", "src/calReorderUtil.c: CalBddReorderFixCofactors, CalBddReorderReclaimForwardedNodes, CalFixupAssoc", "src/calHashTable.c: CalBddPackNodesForSingleId, CalBddPackNodesForMultipleIds"]}
{"id": "C61", "title": "Garbage collection reaches the least number of nodes", "statement": "After a garbage collection the number of nodes, in total and for each variable, is the least possible for the current variable order and the functions that are held: it depends neither on how the BDDs were built nor on what was built and freed in between.", "quantifier": "all pairs of reachable states with the same variable order, in the same or in different managers", "why_tests_cant": "Compares the outcomes of all histories that end with the same functions.", "anchors": ["src/calGC.c: Cal_BddManagerGC, CalHashTableGC", "src/calBddOp.c: uniqueness of nodes", "src/calBddManager.c: Cal_BddManagerGetNumNodes"]}
{"id": "C62", "title": "Reordering never makes the BDDs bigger", "statement": "A reordering ends, and afterwards there are at most as many nodes as garbage collection would have left in the old order, for both methods and both techniques, whatever the limits and blocks are.", "quantifier": "all reachable states, all block trees, all growth, swap and forwarding limits, both methods", "why_tests_cant": "The search goes through larger orders on the way; whether the state it returns to is again as small depends on the whole graph.", "anchors": ["src/calReorderDF.c: BddReorderSift, BddSiftBlock, BddReorderStableWindow3", "src/calReorderBF.c: BddReorderVarSift, BddReorderSiftToBestPos", "src/calBddManager.c: Cal_BddReorder, Cal_BddManagerGetNumNodes"]}
{"id": "C63", "title": "Function profiles count the functions that are left", "statement": "Entry j of the array filled by Cal_BddFunctionProfile is 0 if the function does not depend on the variable of index j, and otherwise the number of distinct functions that are left of it when all variables of index below j are given values; the last entry is the number of constants that are left when all variables are given values. For Cal_BddFunctionProfileMultiple the same holds for the functions of the array together.", "quantifier": "all reachable states, all functions, all arrays of functions", "why_tests_cant": "Computed from node counts by subtracting, at each level, what is referenced from above, in two traversals over a hash table; depends on all shared nodes.", "anchors": ["src/calBddSize.c: Cal_BddFunctionProfile, Cal_BddFunctionProfileMultiple, BddHighestRefStep, BddDominatedStep", "src/calHashTableOne.c: CalHashTableOneInsert, CalHashTableOneLookup, HashTableOneRehash"]}
{"id": "C64", "title": "Printed BDDs can be read back", "statement": "The text that Cal_BddPrintBdd prints determines the function: read with indentation as nesting, labels as abbreviations and each index as the variable at that place of the order, it stands for the function of the BDD, every reference follows the definition of its label, and no label is defined twice. With naming functions the text is the same up to the names. Printing changes nothing in the manager.", "quantifier": "all reachable states, all functions, all naming functions", "why_tests_cant": "The text depends on the sharing in the whole graph, with complemented references and a numbering that is done in a separate traversal.", "anchors": ["src/calPrint.c: Cal_BddPrintBdd, CalBddMarkSharedNodes, CalBddNumberSharedNodes, CalBddVarName, BddPrintBddStep, BddPrintTopVar, BddTerminalId"]}
{"id": "C65", "title": "Printed functions can be read back", "statement": "The text that Cal_BddFunctionPrint prints, a nested sum of products with a letter for each variable, determines the function of the BDD.", "quantifier": "all reachable states, all functions, all names", "why_tests_cant": "All graphs; the letters run out with many variables.", "anchors": ["src/calUtil.c: Cal_BddFunctionPrint, CalBddFunctionPrint"]}
{"id": "C66", "title": "Output is linear in the size", "statement": "Shared nodes are written once: the text printed by Cal_BddPrintBdd and the file written by Cal_BddDumpBdd are no longer than a constant times the number of nodes (and the length of a name or number).", "quantifier": "all reachable states, all functions", "why_tests_cant": "Asymptotic; depends on how often each node is met in a traversal.", "anchors": ["src/calPrint.c: CalBddMarkSharedNodes, CalBddNumberSharedNodes, BddPrintBddStep", "src/calDump.c: BddDumpBddStep"]}
{"id": "C67", "title": "Record managers hand out separate memory", "statement": "Records got from record managers, of one or of several sizes, never overlap with each other or with blocks that are held; they are aligned and lie in memory given by the system. No call changes what is in records and blocks that are held. A freed record is the next one handed out, and as many requests as records were freed are served without new memory. Freeing a manager frees all its records and gives all its memory back: when all is freed, every request that was ever served is served again without asking the system.", "quantifier": "all sequences of legal calls for blocks and records, with any writes of callers to their memory and any moves of the break by others", "why_tests_cant": "All histories; the list of free records goes through memory that callers write to.", "anchors": ["src/calMem.c: Cal_MemNewRec, Cal_MemFreeRec, Cal_MemNewRecMgr, Cal_MemFreeRecMgr"]}
{"id": "C68", "title": "Printed profiles are charts of the profile", "statement": "Cal_BddPrintProfile and Cal_BddPrintFunctionProfile, and their variants for arrays, print one line for each variable with a count that is not zero, in the order of the variables, and one for the leaves: the name, the exact count, and a bar, all bars beginning at the same column, in one scale, the smallest in which none is longer than what is left of the line (at least 20); then the sum, which is the number of nodes (of functions). For null nothing is printed.", "quantifier": "all reachable states, all functions and arrays of functions, all names and all line lengths", "why_tests_cant": "The layout depends on the longest name and the largest count of all levels; for all names, widths and graphs.", "anchors": ["src/calPrintProfile.c: Cal_BddPrintProfile, Cal_BddPrintProfileMultiple, Cal_BddPrintFunctionProfile, Cal_BddPrintFunctionProfileMultiple, CalBddPrintProfileAux, chars"]}
{"id": "C69", "title": "C++ operators compute what they say", "statement": "For BDD objects a and b, also the same one, a &= b, a |= b, a ^= b and a -= b make a denote the conjunction, disjunction, exclusive or, difference of what they denoted, and c = a - b makes c the difference, unless the node limit is exceeded, in which case the result is null. All other objects are left alone and all keep what they denote; use counts stay exact. With a null operand the result is null. a == b holds exactly if both denote the same function or both are null. Cal(n) has n variables with ids 1 to n in this order.", "quantifier": "all programs over BDD objects, all operands, all n up to 65534", "why_tests_cant": "Temporaries, moves and aliasing of objects over all histories.", "anchors": ["src/calObj.hh: BDD::operator&=, BDD::operator|=, BDD::operator^=, BDD::operator-, BDD::operator-=, BDD::operator==, Cal::Cal"]}
{"id": "C70", "title": "C++ functions of ranges use the whole range", "statement": "And, Or and Xor of a range (iterators or a container) of BDD objects, or of ids of variables, make a new object for the conjunction, disjunction, parity of all elements, null if one of them is null or no variable; Size of a range counts the nodes of all of them, shared ones once; AssociationInit associates all variables listed. No object is changed and use counts stay exact.", "quantifier": "all programs, all ranges of up to 1024 objects or ids", "why_tests_cant": "All ranges and histories; the range is copied to an array with references of its own, and the library reads that up to the first null.", "anchors": ["src/calObj.hh: BDD::C_Bdd_vector, BDD::Free, Cal::And, Cal::Or, Cal::Xor, Cal::Size, Cal::AssociationInit"]}
{"id": "C71", "title": "C++ functions that return vectors return the results", "statement": "Profile and FunctionProfile of a BDD object return a vector of one number for each variable and one for the constants, as the C functions compute them. PairwiseAnd, PairwiseOr and PairwiseXor of a range return a vector of the results, one for each pair.", "quantifier": "all programs, all objects and ranges", "why_tests_cant": "All inputs; memory that is written but not part of the vector, or read behind the end of an array, goes unnoticed.", "anchors": ["src/calObj.hh: BDD::Profile, BDD::FunctionProfile, BDD::From_C_Array, Cal::PairwiseAnd, Cal::PairwiseOr, Cal::PairwiseXor"]}
{"id": "C72", "title": "Quitting a manager gives back all its memory, once", "statement": "Whatever calls were made between Cal_BddManagerInit and Cal_BddManagerQuit, and whatever pages, rehashings, repackings and reorderings they needed, no block of memory is freed twice or used after it was freed, and after Cal_BddManagerQuit everything the library allocated is freed, except arrays that it returned to the user. An association gives back its memory when it has been quit as often as it was initialised.", "quantifier": "all sequences of calls, all amounts of memory they need in any order, all allocators (also ones that hand out freed addresses again)", "why_tests_cant": "Depends on which tables and pages grew, moved and were repacked over the whole history.", "anchors": ["src/calBddManager.c: Cal_BddManagerInit, Cal_BddManagerQuit, Cal_BddManagerCreateNewVar*", "src/calMemoryManagement.c: CalPageManager*, CalNodeManager*", "src/calHashTable.c: CalHashTable*, CalBddPackNodesForSingleId, CalBddPackNodesForMultipleIds", "src/calGC.c: CalRepackNodesAfterGC", "src/calReorderDF.c: CalBddReorderAuxDF, BddReallocateNodes", "src/calReorderBF.c: CalBddReorderAuxBF", "src/calAssociation.c, src/calBlk.c, src/calPipeline.c, src/calDump.c"]}
{"id": "C73", "title": "Arrays over variables grow with the variables", "statement": "Whatever sequence of variables created at any place of the order, associations made, quit or changed, pipelines made deeper and neighbours exchanged there was, no call reads or writes outside an array over variables or uses an entry that was never set. Cal_BddManagerGetVarWithIndex and Cal_BddGetIfIndex follow the list in which the variables were inserted and exchanged; each variable has its own BDD, node manager and tables; associations keep what they were given, and have no entry for variables created later.", "quantifier": "all sequences of legal calls with any number of variables up to 65534", "why_tests_cant": "The arrays only grow when the number of variables passes 30, 60, 120, ...; an entry that is not set usually is zero by luck.", "anchors": ["src/calBddManager.c: Cal_BddManagerInit, CalBddManagerCreateNewVar", "src/calAssociation.c: Cal_AssociationInit, Cal_AssociationQuit, Cal_TempAssociationInit, Cal_TempAssociationAugment, Cal_TempAssociationQuit, AssociationIsEqual", "src/calPipeline.c: Cal_PipelineSetDepth", "src/calReorderBF.c, src/calReorderDF.c: exchange of neighbours"]}
{"id": "C74", "title": "The library's own checks never stop a program", "statement": "In a build with assertions, the checks that the library makes of its whole state, after garbage collections, repackings and reorderings, and in each exchange of two variables, never fail: all nodes are in order and have references, the count of each node is exactly the number of references to it, entries of the cache point to nodes, and the last index of each association is right. Making the checks changes nothing.", "quantifier": "all reachable states, all limits, blocks and page layouts", "why_tests_cant": "The checks go through the whole graph of any size; a run only shows that the states it goes through pass.", "anchors": ["src/calReorderUtil.c: CalCheckAllValidity, CalCheckValidityOfNodesForId, CalCheckValidityOfANode, CalCheckRefCountValidity, CalCheckAssoc", "src/calCacheTableTwo.c: CalCheckCacheTableValidity", "src/calUtil.c: CalBddPostProcessing", "src/calReorderBF.c: CalBddReorderAuxBF", "src/calReorderDF.c: CalBddReorderAuxDF, BddExchange, BddExchangeAux, CheckValidityOfNodes"]}
