import json
P=[]
def p(title, statement, quantifier, why, anchors):
    P.append(dict(id="C%02d"%(len(P)+1), title=title, statement=statement, quantifier=quantifier, why_tests_cant=why, anchors=anchors))
p("Canonicity of handles","In every state of a manager, two live BDD handles compare equal (Cal_BddIsEqual / BDD::operator==) exactly when they denote the same Boolean function of the manager's variables; in particular the constant handles are the only handles of the constant functions.",
  "all manager states satisfying the reachable-state invariant, all pairs of edges/handles, all Boolean functions over any number of variables","A test compares finitely many BDDs in finitely many states; canonicity is a claim about all pairs in all histories.",
  ["src/calHashTable.c: CalUniqueTableForIdFindOrAdd","src/calInt.h: CalBddIsEqual","src/cal.c: Cal_BddIsEqual"])
p("Binary Boolean operations","Cal_BddAnd, Or, Nand, Nor, Xor and Xnor always terminate with a handle denoting exactly the conjunction, disjunction, ... of the operands' functions.",
  "all well-formed manager states, all operand pairs, all variable counts and orders, all assignments","Unit tests cover particular BDDs and orders; the breadth-first request queues have unboundedly many shapes.",
  ["src/calBddOp.c: Cal_BddAnd..Cal_BddXnor, CalBddOpBF","src/calApplyReduce.c: CalHashTableApply, CalHashTableReduce","src/calTerminal.c"])
p("If-then-else","Cal_BddITE(f,g,h) always terminates with a handle denoting (f and g) or (not f and h).",
  "all well-formed states, all triples of operands","The complement normalisation and three-operand cofactoring have too many interacting cases to enumerate over all BDDs.",
  ["src/calBddITE.c: CalBddOpITEBF, CalHashTableITEApply","src/calTerminal.c: CalOpITE","src/calInt.h: CalITERequestNodeGetCofactors"])
p("Multiway operations","Cal_BddMultiwayAnd/Or/Xor of a non-empty array of up to 1024 BDDs denotes the conjunction/disjunction/parity of all of them, whatever the array length, order and repetition of elements.",
  "all well-formed states, all arrays of BDDs (any length accepted by the code)","The pairing tree with a floating odd element and the pipelined request queues depend on the length and on the shapes of all operands at once.",
  ["src/calBddOp.c: BddMultiwayOp, BddArrayToRequestNodeListArray, CalRequestNodeListArrayOp"])
p("Pairwise operations","Cal_BddPairwiseAnd/Or/Xor of an even-length array returns, at position i, the operation applied to elements 2i and 2i+1.",
  "all well-formed states, all even-length arrays","Only some combinations of top variables across pairs expose a wrong start level; tests that happen to use decreasing top indices pass.",
  ["src/calBddOp.c: BddArrayOpBF, Cal_BddPairwiseAnd, Cal_BddPairwiseOr, Cal_BddPairwiseXor"])
p("Negation, identity and regular form","Cal_BddNot denotes the complement, is an involution and never changes the store; Cal_BddIdentity denotes the same function; Cal_BddGetRegular returns the operand or its complement, the same for f and not f.",
  "all states, all handles","Universal algebraic laws.",
  ["src/cal.c: Cal_BddNot, Cal_BddIdentity, Cal_BddGetRegular","src/calInt.h: CalBddNot"])
p("Top variable and Shannon expansion","For every non-constant f: Cal_BddIf is the variable of least index f depends on, and f = ite(If f, Then f, Else f), where Then and Else do not depend on that variable.",
  "all well-formed states, all non-constant handles","Must hold through every chain of complement edges.",
  ["src/cal.c: Cal_BddIf, Cal_BddThen, Cal_BddElse, Cal_BddGetIfIndex, Cal_BddGetIfId"])
p("Operations do not disturb existing BDDs","Every operation leaves the function denoted by every previously existing BDD unchanged, and leaves the store reduced and ordered (no duplicate or redundant node, children strictly below parents).",
  "all operations modelled, all well-formed states, all existing edges","A stray in-place update shows up only for some third-party handle in some history.",
  ["src/calApplyReduce.c: CalHashTableReduce","src/calHashTable.c: CalUniqueTableForIdFindOrAdd"])
p("Reference count encoding","The 8-bit reference count scattered over tag bits of three pointer fields is read back exactly as written, does not disturb the node addresses or complement bits stored in the same words, saturates at 255 and is sticky there.",
  "all 64-bit field contents with 16-byte aligned addresses, all counts","2^192 field contents.",
  ["src/calInt.h:754-863, 1064-1165 CalBddNodeGetRefCount, PutRefCount, IcrRefCount, DcrRefCount, AddRefCount"])
p("Pointer tagging","Then/else accessors return the stored child and complement bit, with the parent's complement folded in, for every aligned address and every setting of the tag bits; writing a child leaves count and mark bits unchanged.",
  "all 64-bit words with aligned addresses","2^64 words per field.",
  ["src/calInt.h:616-752 CAL_BDD_POINTER, CAL_TAG0, CalBddGetThenBdd, CalBddPutThenBdd, marks at 1180-1212"])
p("Reference counts are exact","After every operation each node's count is either saturated or equals the number of its parents in the store plus the external references held on it, so no operation leaks or loses a reference.",
  "all well-formed states with exact counts, all operations modelled with counts","A lost or leaked reference shows only later, when a collection happens at an unlucky moment.",
  ["src/calApplyReduce.c: CalHashTableReduce","src/calHashTable.c","src/calUtil.c: CalBddGetExternalBdd"])
p("Garbage collection is safe","Cal_BddManagerGC never removes a node reachable from a live handle or any other held reference; every live handle denotes the same function afterwards and the store stays well formed.",
  "all well-formed states with exact counts, all sets of live handles","Depends on the whole sharing graph; a wrong order or a missed decrement is visible only in particular graphs.",
  ["src/calGC.c: Cal_BddManagerGC, CalHashTableGC"])
p("Garbage collection is complete","One call of Cal_BddManagerGC removes every node that is not reachable from a held reference or a saturated node (a single top-down pass suffices).",
  "all well-formed states with exact counts","Universally quantified over graphs; a bottom-up order would leave chains of garbage behind.",
  ["src/calGC.c: Cal_BddManagerGC, CalHashTableGC"])
p("Existential quantification","Cal_BddExists(f) denotes the existential quantification of f over exactly the variables associated in the current association.",
  "all well-formed states with a valid cache, all f, all associations","Early cut-offs by last associated index and cache hits depend on history.",
  ["src/calQuant.c: Cal_BddExists, BddExistsStep, BddDFStep"])
p("Universal quantification","Cal_BddForAll(f) denotes the universal quantification of f over exactly the associated variables.",
  "all well-formed states with a valid cache, all f, all associations","As for Exists.",["src/calQuant.c: Cal_BddForAll"])
p("Relational product","Cal_BddRelProd(f,g) denotes the existential quantification over the associated variables of f and g.",
  "all well-formed states with a valid cache, all f, g, all associations","As for Exists, plus the interplay of three opcodes in one cache.",["src/calQuant.c: Cal_BddRelProd, BddRelProdStep"])
p("Computed-table transparency","Whatever entries earlier operations left in the computed table, and whichever were evicted by collisions, rehashing or flushing, results are the same as with an empty table; lookups never return an entry for other operands or another operation.",
  "all cache contents reachable by inserts of correct results, all hash functions, all operands","Depends on the whole history of insertions and collisions.",
  ["src/calCacheTableTwo.c"])
p("Cache entries do not survive the nodes they mention","After garbage collection no cache entry mentions a freed node, so a later node allocated at the same address can never be confused with the old one.",
  "all states, all caches, all collections","Needs address reuse at a specific slot.",
  ["src/calCacheTableTwo.c: CalCacheTableTwoGCFlush","src/calGC.c"])
p("Generalised cofactor","Cal_BddCofactor(f,c) agrees with f wherever c holds, for every satisfiable c; for a cube c it is the ordinary cofactor.",
  "all well-formed states, all f, all c not constant false","All pairs of BDDs.",["src/calReduce.c: Cal_BddCofactor, BddCofactorBF / BddConstrain step"])
p("Reduce","Cal_BddReduce(f,c) agrees with f wherever c holds and is never larger than f.",
  "all well-formed states, all f and c","All pairs of BDDs.",["src/calReduce.c: Cal_BddReduce"])
p("Between","Cal_BddBetween(fMin,fMax) contains fMin and is contained in fMax whenever fMin implies fMax.",
  "all well-formed states, all pairs with fMin implying fMax","All pairs of BDDs.",["src/calReduce.c: Cal_BddBetween"])
p("Compose","Cal_BddCompose(f,g,h) denotes f with the variable g replaced by h.",
  "all well-formed states, all f, h, all variables g","h may depend on variables above g, forcing a full ITE.",["src/calBddCompose.c"])
p("Simultaneous substitution","Cal_BddSubstitute(f) denotes f with every associated variable replaced simultaneously by its associated BDD.",
  "all well-formed states, all f, all associations","All functions and all simultaneous substitutions, in particular cyclic ones such as swaps.",["src/calBddSubstitute.c"])
p("Variable renaming","Cal_BddVarSubstitute(f) denotes f with every associated variable replaced simultaneously by its associated variable.",
  "all well-formed states, all f, all variable-to-variable associations","Includes order-violating renamings.",["src/calBddVarSubstitute.c"])
p("Swapping two variables","Cal_BddSwapVars(f,g,h) denotes f with the variables g and h exchanged.",
  "all well-formed states, all f, all pairs of variables in either order","Many cases: variables adjacent, distant, absent, or the same.",["src/calBddSwapVars.c"])
p("Satisfying cube","Cal_BddSatisfy(f), for f not constant false, is a cube that implies f; it has every variable at most once and only variables f depends on. Cal_BddSatisfySupport(f) is a cube that implies f, has every variable of the current association and other variables only if f depends on them. For constant false both return f.",
  "all well-formed states, all satisfiable f","All functions.",["src/calBddSatisfy.c: Cal_BddSatisfy, Cal_BddSatisfySupport"])
p("Satisfying fraction","Cal_BddSatisfyingFraction(f) is between 0 and 1; with at most 53 variables it is exactly the fraction of the assignments to all variables that satisfy f, with n variables it is within 3n*2^-53 of that fraction (assuming that double arithmetic rounds as IEEE 754 says).",
  "all well-formed states, all f","Number of assignments is exponential; every function.",["src/calBddSatisfy.c: Cal_BddSatisfyingFraction"])
p("Intersects and Implies","Cal_BddIntersects(f,g) is a BDD implying f and g which is constant false exactly when f and g are disjoint; Cal_BddImplies(f,g) implies f and not g and is constant false exactly when f implies g.",
  "all well-formed states, all pairs","The search stops early; a wrong cut-off needs specific shapes.",["src/cal.c: Cal_BddIntersects, Cal_BddImplies, BddIntersectsStep"])
p("Support and dependence","Cal_BddSupport(f) lists exactly, without repetition, the variables f semantically depends on; Cal_BddDependsOn(f,v) is true exactly when f semantically depends on v; all marks are cleared afterwards.",
  "all well-formed states, all f, all v","Marking traversals over shared graphs; a stale mark breaks a later call.",["src/calBddSupport.c"])
p("Size","Cal_BddSize(f,0) is the number of distinct functions obtained from f by fixing the first k variables of the order, for any k (f itself and the constants included); Cal_BddSize(f,1) counts a function and its complement once, which is the number of nodes of the diagram. Cal_BddSizeMultiple counts the same for several functions together. Size is invariant under negation; marks are cleared afterwards.",
  "all well-formed states, all f (or arrays of f)","Two-bit marks on shared graphs with mixed polarities.",["src/calBddSize.c: Cal_BddSize, Cal_BddSizeMultiple"])
p("Profile","The level counts of Cal_BddProfile (and of Cal_BddProfileMultiple) sum to Cal_BddSize, entry i counts exactly the functions Cal_BddSize counts whose first variable has index i, and the last entry the constants.",
  "all well-formed states, all f","As for Size.",["src/calBddSize.c: Cal_BddProfile"])
p("Cubes and node types","Cal_BddIsCube(f) holds exactly when f is a conjunction of literals (f not constant false); Cal_BddType classifies constants, positive and negative literals exactly.",
  "all well-formed states, all f","All functions.",["src/cal.c: Cal_BddIsCube, Cal_BddType"])
p("Creating variables","Cal_BddManagerCreateNewVarFirst/Last/Before/After insert a new variable at the documented position, keep the relative order of the old variables, and change no existing function; the new variable denotes its own projection.",
  "all manager states with fewer than the maximal number of variables, all positions","All histories of insertions.",["src/calBddManager.c: CalBddManagerCreateNewVar, Cal_BddManagerCreateNewVarBefore/After"])
p("Ids and indices","In every reachable state, ids and indices are mutually inverse bijections, ids never change, and Cal_BddManagerGetVarWithId/WithIndex return the right variable or null when out of range.",
  "all sequences of variable creations and adjacent swaps","All histories.",["src/calBddManager.c","src/calReorderDF.c: BddExchange","src/calReorderBF.c: BddReorderSwapVarIndex"])
p("Associations","Cal_AssociationInit returns the id of an existing association exactly when its contents are the same, otherwise a fresh id; ids in use stay valid until their use count drops to zero; SetCurrent switches to exactly that association.",
  "all sequences of Init/Quit/SetCurrent","Counting and id reuse over arbitrary histories.",["src/calAssociation.c"])
p("Temporary association","Cal_TempAssociationInit/Augment/Quit make the temporary association map exactly the variables given last for each variable and nothing else, keeping the last-index bound valid.",
  "all sequences of Init/Augment/Quit","All histories.",["src/calAssociation.c: Cal_TempAssociationInit, Cal_TempAssociationAugment"])
p("Dump/undump round trip","Reading back what Cal_BddDumpBdd wrote, with the same variables, yields the same BDD; with another variable array of the same length it yields the BDD with the variables renamed position by position.",
  "all well-formed states, all f, all variable arrays covering the support","Shared-node labels, four index widths and polarity handling.",["src/calDump.c","src/calPrint.c: CalBddNumberSharedNodes, CalBddMarkSharedNodes"])
p("Undump rejects bad input safely","Cal_BddUndumpBdd on any byte stream either returns a BDD or reports an error; it never writes outside its table of shared nodes.",
  "all byte streams","All malformed files.",["src/calDump.c: Cal_BddUndumpBdd, BddUndumpBddStep"])
p("Adjacent variable exchange","Exchanging two adjacent variables during reordering preserves the function denoted by every node that survives, keeps the store reduced and ordered for the new order, and keeps reference counts exact.",
  "all well-formed stores, all adjacent pairs of levels","In-place rewriting of shared nodes; correctness depends on the whole graph.",["src/calReorderDF.c: BddExchange, BddExchangeAux, SweepVarTable"])
p("Trivial exchange only when variables do not interact","The shortcut that swaps two levels without touching nodes is taken only when no live BDD has an edge between the two levels.",
  "all states, including BDDs held only by associations","Needs a BDD reachable only through an association or a saturated node.",["src/calInteract.c: CalInitInteract","src/calReorderDF.c: BddExchange","src/calReorderBF.c: BddReorderSwapVarIndex"])
p("Interaction matrix indexing","Setting and testing pairs in the packed triangular bit matrix behave like a set of unordered pairs: a pair tests true exactly when it was set, and every position is within the allocation.",
  "all numbers of variables, all sequences of set operations","Quadratically many positions for each of up to 65534 sizes.",["src/calInteract.c: CalSetInteract, CalTestInteract, CalInitInteract"])
p("Exchange of adjacent blocks","Exchanging two adjacent blocks of sizes n and m by adjacent swaps ends with the second block's variables, in order, before the first block's variables, in order, and every other variable unmoved.",
  "all block sizes and positions","All sizes; off-by-one in a doubly nested loop.",["src/calReorderDF.c: BddExchangeVarBlocks"])
p("Sifting and window permutation never end worse","Sifting a block ends at the best position it visited (within its growth bounds), and window permutation ends at the best of the permutations tried, so neither leaves more nodes than before.",
  "all size functions of the order, all start positions, all numbers of blocks","Depends on the whole cost landscape.",["src/calReorderDF.c: BddSiftBlock, BddReorderWindow2, BddReorderWindow3","src/calReorderBF.c: BddReorderSiftToBestPos"])
p("Variable blocks","After any sequence of block creations and variable insertions the block tree's leaves partition the variables in order and nested blocks partition their parents; Cal_BddNewVarBlock never splits an existing block (it stops with a fatal error instead).",
  "all sequences of Cal_BddNewVarBlock and variable creations","All histories.",["src/calBlk.c: Cal_BddNewVarBlock, AddBlock, CalBddShiftBlock"])
p("Pipelines","A pipeline of provisional BDDs executes to exactly the functions obtained by the same operations one at a time.",
  "all sequences of pipelined creations and executions, all depths","Deferred execution in chunks over request queues.",["src/calPipeline.c"])
p("Node limit and overflow","When the node limit is exceeded an operation returns null, records an overflow that Cal_BddOverflow reports once and clears, and leaves all other handles denoting the same functions; with limit 0 it never overflows.",
  "all states, all limits","Depends on when the periodic check fires.",["src/calUtil.c: CalBddPostProcessing","src/cal.c: Cal_BddOverflow, Cal_BddNodeLimit"])
p("Garbage collection limit","Cal_BddManagerSetGCLimit sets the limit to twice the node count, at least the minimum, and never above a non-zero node limit.",
  "all node counts and limits","Arithmetic over all values.",["src/calGC.c: Cal_BddManagerSetGCLimit"])
p("Garbage collection mode","After Cal_BddSetGCMode(m,0) no garbage collection happens until it is switched on again.",
  "all histories of operations after switching off","Every later operation must respect it.",["src/calGC.c: Cal_BddSetGCMode, CalBddManagerGCCheck","src/calUtil.c: CalBddPostProcessing"])
p("Hash tables are sets","The chained hash tables (unique tables, request queues) find exactly what was added and not deleted, never hold duplicates, and lose or duplicate nothing when rehashed or shrunk, when garbage is collected from them, or when they are traversed to forward the children of their nodes.",
  "all sequences of find-or-add/delete/rehash, all hash values","All collision patterns.",["src/calHashTable.c","src/calHashTableOne.c","src/calHashTableThree.c"])
p("Temporary opcodes never collide","Operations under the temporary association never reuse a cache opcode that another operation could still have entries for.",
  "all histories of operations (any number)","Needs more than 57000 operations before a failure.",["src/calInt.h:436 tempOpCode","src/calQuant.c","src/calBddVarSubstitute.c"])
p("Node allocation","The node manager never hands out a node that is already in use, and every freed node becomes available again.",
  "all sequences of allocations and frees","All histories.",["src/calMemoryManagement.c","src/calInt.h:475-573 CalNodeManagerAllocNode, CalNodeManagerFreeNode"])
p("Block allocator","Blocks handed out by Cal_MemGetBlock never overlap, lie inside memory obtained from the system, and freed buddies coalesce without losing memory.",
  "all sequences of allocations, frees and resizes","All histories.",["src/calMem.c"])
p("Random numbers","CalUtilRandom, after any seeding in range, always returns a value between 0 and 2147483561 and never indexes outside its shuffle table; both sub-generators compute multiplication modulo their prime exactly.",
  "all seeds in the valid range, all numbers of calls","2^31 seeds and unbounded sequences.",["src/calUtil.c: CalUtilSRandom, CalUtilRandom"])
p("Default terminal transform","The default transform of a two-word terminal value is an involution (128-bit two's complement negation): transforming a printed terminal value for a complemented edge twice gives back the value.",
  "all pairs of 64-bit words","2^128 inputs.",["src/calBddManager.c: BddDefaultTransformFn"])
p("C++ handles balance references","For every sequence of copies, moves, assignments (including self-assignment) and destructions of BDD objects, the use count of each handle equals the number of live objects holding it.",
  "all sequences of object operations","All histories.",["src/calObj.hh: class BDD"])
p("Handles keep their meaning through any history","Through any sequence of API calls - creating variables, Boolean operations, freeing handles, garbage collections - every handle that has not been freed denotes the function it denoted when it was returned.",
  "all sequences of API calls","The quantifier is over all histories.",["src/cal.h"])
p("Reordering keeps all functions","A depth-first reordering (Cal_BddReorder, or one triggered by an operation), by sifting or window permutation, leaves every handle, association and pipeline result denoting the same function, keeps the invariants every later call relies on, and rearranges variables only within reorderable blocks.",
  "all reachable states, all block trees, all growth and swap limits, both techniques","Rewrites and relocates every node of the graph.",["src/calReorderDF.c: CalBddReorderAuxDF, BddConvertDataStruct, BddReallocateNodes, BddConvertDataStructBack","src/calReorderUtil.c: CalBddReorderFixUserBddPtrs","src/calAssociation.c: CalReorderAssociationFix","src/calPipeline.c: CalBddReorderFixProvisionalNodes"])
p("Repacking keeps all functions","Repacking nodes onto fewer pages after a garbage collection never runs out of places, leaves every handle, association, cached result, pipeline result and variable denoting the same function, and leaves no node and no usable free place on a page that is given back.",
  "all reachable states, all layouts of nodes on pages, all utilisation thresholds","Depends on the page on which each node lies, hence on the whole history.",["src/calGC.c: CalRepackNodesAfterGC","src/calCacheTableTwo.c: CalCacheTableTwoRepackUpdate","src/calInt.h:586 CalBddIdNeedsRepacking"])
p("Breadth-first and depth-first quantification agree","Above 2^19 nodes Cal_BddExists, Cal_BddForAll and Cal_BddRelProd use a breadth-first algorithm. In any state, with either algorithm, they succeed, return the BDD of the same quantified function, leave all other handles as they are and leave no request node or temporary cache entry behind.",
  "all reachable states, all operands and associations, all contents of the computed table","The breadth-first code only runs above half a million nodes, and depends on what the computed table holds.",["src/calQuant.c: BddExistsBFPlusDF, BddExistsBFAux, BddExistsApply, BddExistsReduce, BddRelProdBFPlusDF, BddRelProdBFAux, BddRelProdApply, BddRelProdReduce","src/calCacheTableTwo.c: CalCacheTableTwoFixResultPointers"])
p("Breadth-first reordering keeps all functions","A breadth-first reordering, by sifting or by window permutation (Cal_BddReorder, or one triggered by an operation) ends without fault, leaves every handle, association and pipeline result denoting the same function, keeps the invariants every later call relies on, respects variable blocks and gives back all memory it no longer uses.",
  "all reachable states, all growth and swap limits, all limits on forwarding nodes, whatever is packed when","Moves nodes between levels and leaves forwarding nodes that are followed later; correctness depends on the whole graph and on when the clean-up runs.",["src/calReorderBF.c: CalBddReorderAuxBF, BddReorderVarSift, BddReorderSiftToBestPos, BddReorderSwapVarIndex, BddReorderFixForwardingNodes, BddReorderVarWindow, BddReorderWindow2, BddReorderWindow3, BddReorderFixAndFreeForwardingNodes","src/calReorderUtil.c: CalBddReorderFixCofactors, CalBddReorderReclaimForwardedNodes, CalFixupAssoc","src/calHashTable.c: CalBddPackNodesForSingleId, CalBddPackNodesForMultipleIds"])
p("Garbage collection reaches the least number of nodes","After a garbage collection the number of nodes, in total and for each variable, is the least possible for the current variable order and the functions that are held: it depends neither on how the BDDs were built nor on what was built and freed in between.",
  "all pairs of reachable states with the same variable order, in the same or in different managers","Compares the outcomes of all histories that end with the same functions.",["src/calGC.c: Cal_BddManagerGC, CalHashTableGC","src/calBddOp.c: uniqueness of nodes","src/calBddManager.c: Cal_BddManagerGetNumNodes"])
p("Reordering never makes the BDDs bigger","A reordering ends, and afterwards there are at most as many nodes as garbage collection would have left in the old order, for both methods and both techniques, whatever the limits and blocks are.",
  "all reachable states, all block trees, all growth, swap and forwarding limits, both methods","The search goes through larger orders on the way; whether the state it returns to is again as small depends on the whole graph.",["src/calReorderDF.c: BddReorderSift, BddSiftBlock, BddReorderStableWindow3","src/calReorderBF.c: BddReorderVarSift, BddReorderSiftToBestPos","src/calBddManager.c: Cal_BddReorder, Cal_BddManagerGetNumNodes"])
p("Function profiles count the functions that are left","Entry j of the array filled by Cal_BddFunctionProfile is 0 if the function does not depend on the variable of index j, and otherwise the number of distinct functions that are left of it when all variables of index below j are given values; the last entry is the number of constants that are left when all variables are given values. For Cal_BddFunctionProfileMultiple the same holds for the functions of the array together.",
  "all reachable states, all functions, all arrays of functions","Computed from node counts by subtracting, at each level, what is referenced from above, in two traversals over a hash table; depends on all shared nodes.",["src/calBddSize.c: Cal_BddFunctionProfile, Cal_BddFunctionProfileMultiple, BddHighestRefStep, BddDominatedStep","src/calHashTableOne.c: CalHashTableOneInsert, CalHashTableOneLookup, HashTableOneRehash"])
p("Printed BDDs can be read back","The text that Cal_BddPrintBdd prints determines the function: read with indentation as nesting, labels as abbreviations and each index as the variable at that place of the order, it stands for the function of the BDD, every reference follows the definition of its label, and no label is defined twice. With naming functions the text is the same up to the names. Printing changes nothing in the manager.",
  "all reachable states, all functions, all naming functions","The text depends on the sharing in the whole graph, with complemented references and a numbering that is done in a separate traversal.",["src/calPrint.c: Cal_BddPrintBdd, CalBddMarkSharedNodes, CalBddNumberSharedNodes, CalBddVarName, BddPrintBddStep, BddPrintTopVar, BddTerminalId"])
p("Printed functions can be read back","The text that Cal_BddFunctionPrint prints, a nested sum of products with a letter for each variable, determines the function of the BDD.",
  "all reachable states, all functions, all names","All graphs; the letters run out with many variables.",["src/calUtil.c: Cal_BddFunctionPrint, CalBddFunctionPrint"])
p("Output is linear in the size","Shared nodes are written once: the text printed by Cal_BddPrintBdd and the file written by Cal_BddDumpBdd are no longer than a constant times the number of nodes (and the length of a name or number).",
  "all reachable states, all functions","Asymptotic; depends on how often each node is met in a traversal.",["src/calPrint.c: CalBddMarkSharedNodes, CalBddNumberSharedNodes, BddPrintBddStep","src/calDump.c: BddDumpBddStep"])
p("Record managers hand out separate memory","Records got from record managers, of one or of several sizes, never overlap with each other or with blocks that are held; they are aligned and lie in memory given by the system. No call changes what is in records and blocks that are held. A freed record is the next one handed out, and as many requests as records were freed are served without new memory. Freeing a manager frees all its records and gives all its memory back: when all is freed, every request that was ever served is served again without asking the system.",
  "all sequences of legal calls for blocks and records, with any writes of callers to their memory and any moves of the break by others","All histories; the list of free records goes through memory that callers write to.",["src/calMem.c: Cal_MemNewRec, Cal_MemFreeRec, Cal_MemNewRecMgr, Cal_MemFreeRecMgr"])
p("Printed profiles are charts of the profile","Cal_BddPrintProfile and Cal_BddPrintFunctionProfile, and their variants for arrays, print one line for each variable with a count that is not zero, in the order of the variables, and one for the leaves: the name, the exact count, and a bar, all bars beginning at the same column, in one scale, the smallest in which none is longer than what is left of the line (at least 20); then the sum, which is the number of nodes (of functions). For null nothing is printed.",
  "all reachable states, all functions and arrays of functions, all names and all line lengths","The layout depends on the longest name and the largest count of all levels; for all names, widths and graphs.",["src/calPrintProfile.c: Cal_BddPrintProfile, Cal_BddPrintProfileMultiple, Cal_BddPrintFunctionProfile, Cal_BddPrintFunctionProfileMultiple, CalBddPrintProfileAux, chars"])
p("C++ operators compute what they say","For BDD objects a and b, also the same one, a &= b, a |= b, a ^= b and a -= b make a denote the conjunction, disjunction, exclusive or, difference of what they denoted, and c = a - b makes c the difference, unless the node limit is exceeded, in which case the result is null. All other objects are left alone and all keep what they denote; use counts stay exact. With a null operand the result is null. a == b holds exactly if both denote the same function or both are null. Cal(n) has n variables with ids 1 to n in this order.",
  "all programs over BDD objects, all operands, all n up to 65534","Temporaries, moves and aliasing of objects over all histories.",["src/calObj.hh: BDD::operator&=, BDD::operator|=, BDD::operator^=, BDD::operator-, BDD::operator-=, BDD::operator==, Cal::Cal"])
p("C++ functions of ranges use the whole range","And, Or and Xor of a range (iterators or a container) of BDD objects, or of ids of variables, make a new object for the conjunction, disjunction, parity of all elements, null if one of them is null or no variable; Size of a range counts the nodes of all of them, shared ones once; AssociationInit associates all variables listed. No object is changed and use counts stay exact.",
  "all programs, all ranges of up to 1024 objects or ids","All ranges and histories; the range is copied to an array with references of its own, and the library reads that up to the first null.",["src/calObj.hh: BDD::C_Bdd_vector, BDD::Free, Cal::And, Cal::Or, Cal::Xor, Cal::Size, Cal::AssociationInit"])
p("C++ functions that return vectors return the results","Profile and FunctionProfile of a BDD object return a vector of one number for each variable and one for the constants, as the C functions compute them. PairwiseAnd, PairwiseOr and PairwiseXor of a range return a vector of the results, one for each pair.",
  "all programs, all objects and ranges","All inputs; memory that is written but not part of the vector, or read behind the end of an array, goes unnoticed.",["src/calObj.hh: BDD::Profile, BDD::FunctionProfile, BDD::From_C_Array, Cal::PairwiseAnd, Cal::PairwiseOr, Cal::PairwiseXor"])
p("Quitting a manager gives back all its memory, once","Whatever calls were made between Cal_BddManagerInit and Cal_BddManagerQuit, and whatever pages, rehashings, repackings and reorderings they needed, no block of memory is freed twice or used after it was freed, and after Cal_BddManagerQuit everything the library allocated is freed, except arrays that it returned to the user. An association gives back its memory when it has been quit as often as it was initialised.",
  "all sequences of calls, all amounts of memory they need in any order, all allocators (also ones that hand out freed addresses again)","Depends on which tables and pages grew, moved and were repacked over the whole history.",["src/calBddManager.c: Cal_BddManagerInit, Cal_BddManagerQuit, Cal_BddManagerCreateNewVar*","src/calMemoryManagement.c: CalPageManager*, CalNodeManager*","src/calHashTable.c: CalHashTable*, CalBddPackNodesForSingleId, CalBddPackNodesForMultipleIds","src/calGC.c: CalRepackNodesAfterGC","src/calReorderDF.c: CalBddReorderAuxDF, BddReallocateNodes","src/calReorderBF.c: CalBddReorderAuxBF","src/calAssociation.c, src/calBlk.c, src/calPipeline.c, src/calDump.c"])
p("Arrays over variables grow with the variables","Whatever sequence of variables created at any place of the order, associations made, quit or changed, pipelines made deeper and neighbours exchanged there was, no call reads or writes outside an array over variables or uses an entry that was never set. Cal_BddManagerGetVarWithIndex and Cal_BddGetIfIndex follow the list in which the variables were inserted and exchanged; each variable has its own BDD, node manager and tables; associations keep what they were given, and have no entry for variables created later.",
  "all sequences of legal calls with any number of variables up to 65534","The arrays only grow when the number of variables passes 30, 60, 120, ...; an entry that is not set usually is zero by luck.",["src/calBddManager.c: Cal_BddManagerInit, CalBddManagerCreateNewVar","src/calAssociation.c: Cal_AssociationInit, Cal_AssociationQuit, Cal_TempAssociationInit, Cal_TempAssociationAugment, Cal_TempAssociationQuit, AssociationIsEqual","src/calPipeline.c: Cal_PipelineSetDepth","src/calReorderBF.c, src/calReorderDF.c: exchange of neighbours"])
p("The library's own checks never stop a program","In a build with assertions, the checks that the library makes of its whole state, after garbage collections, repackings and reorderings, and in each exchange of two variables, never fail: all nodes are in order and have references, the count of each node is exactly the number of references to it, entries of the cache point to nodes, and the last index of each association is right. Making the checks changes nothing.",
  "all reachable states, all limits, blocks and page layouts","The checks go through the whole graph of any size; a run only shows that the states it goes through pass.",["src/calReorderUtil.c: CalCheckAllValidity, CalCheckValidityOfNodesForId, CalCheckValidityOfANode, CalCheckRefCountValidity, CalCheckAssoc","src/calCacheTableTwo.c: CalCheckCacheTableValidity","src/calUtil.c: CalBddPostProcessing","src/calReorderBF.c: CalBddReorderAuxBF","src/calReorderDF.c: CalBddReorderAuxDF, BddExchange, BddExchangeAux, CheckValidityOfNodes"])
open('/verif/properties.jsonl','w').write("\n".join(json.dumps(x) for x in P)+"\n")
print(len(P))
