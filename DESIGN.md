# A machine-checked model of the CAL BDD package

## Trusted base

* Lean 4.33.0's kernel. The theorems depend on at most `propext`, `Classical.choice` and `Quot.sound`
  (`#print axioms`). No axioms are added; there is no `sorry`, `native_decide` or `bv_decide`.
* The model is a hand transcription of the C and C++ source under `/repo/src` into total Lean functions.
  That it matches the source is by reading: every definition cites the file and lines it models and says
  where it simplifies. The C compiler, `malloc`, `printf` and the rest of the standard library are not
  modelled.
* Assumptions that appear as hypotheses of theorems, never as axioms:
  * `E.Sound` for the environment `E` of a session (`Env` in `Mgr.lean`, `Env.Sound` in `MgrOps.lean`). It
    says what the parts of the package that a session can call, but that are not inlined in its model,
    must do: reordering and repacking keep the invariant and the function of every handle and do not touch
    the countdown to the next check; the breadth-first variants of quantification used above 2^19 nodes
    compute the quantified function (the code's do: `C59_nothing_assumed`); the rounding of doubles is monotone, exact on short fractions and off
    by at most 2^-53 in [0,1]. `Env.plain_sound` shows that it can be met (no reordering, no repacking,
    depth-first quantification, exact rationals).
  * the hash function of a table is an arbitrary function (`init hash`): no theorem depends on which.
  * `qsort` sorts (association and dump code do not rely on it; `Cal_BddSupport` does not sort).
  * memory does not run out: `CalBddFatalMessage` after a failing `malloc` ends the process. The block
    allocator (`Mem*.lean`) does model the end of memory.

## Shape of the model

Undefined behaviour (reading the children of something that is not a node, following a freed user node,
indexing outside a table) is the outcome `none`. A theorem that a call returns `some` therefore says that
it never does such a thing.

Specification side
* `Sem.lean`: a Boolean function is `(Nat → Bool) → Bool`; `Rep s e F` says that edge `e` of store `s`
  denotes `F`, by walking then/else children; `Store.WF` is the unique-table invariant (reduced, ordered,
  unique, free lists apart from the heap).
* `Spec.lean`: the functions the operations must compute (`exFn`, `cofactor`, `restrict`, substitution ...).
* `Subfn.lean`: sizes and profiles of a function, by its subfunctions, independent of any node.
* `Session.lean`: `Call`, `Call.Legal` (what a client must respect: live handles, existing variables),
  `Reachable E own lk m` (`m` is reached by a history of legal calls; `own` counts the references the
  client holds). Properties quantify over reachable managers: they hold after every history.

Code side
* `Store`, `StoreLemmas`, `MkNode`: nodes, unique tables, reference counts with the sticky maximum 255,
  the counters.
* `BF`, `BFInv`, `BFReduce`, `BFRun`, `Kernels`, `KernelLaws`, `Ops`, `OpsSpec`, `Multi`, `Refs`: the
  breadth-first engine with one queue (AND, OR, XOR, ITE, multiway, pairwise), with its exact reference
  counts.
* `Eng*`, `Cofactor`, `Compose`, `Swap`, `Nest`, `Reduce`, `Restrict`, `Subst`, `VarSubst`: the operations
  with several queues, with operations inside operations, or with the cache.
* `DF`, `Cache`: depth-first quantification with the computed table.
* `QuantBF`, `QuantBFInv`, `QuantBFApp`, `QuantBFRed`, `QuantBFOk`, `ApiQuantBF`: breadth-first quantification, with its
  three arrays of queues and temporary cache entries for requests.
* `GC`: the collection of the unique tables and the flush of the cache.
* `Satisfy`, `Fraction`, `Support`, `Walk`: traversals with marks.
* `Mgr`, `MgrInv`, `MgrOps`, `User`, `Api*`: the manager, user handles, associations and the public
  functions.
* `Bits`, `HashTable`, `NodeManager`, `Rng`, `Interact`: words of a node, chained tables with rehashing,
  node and page managers, random numbers, the packed interaction matrix.
* `Cpp`: the C++ handle classes as a step machine over the C counts; `CppOps`: operators, functions of ranges and those
  returning vectors, as programs of that machine.
* `Dump*`: BDD files, byte by byte.
* `Block`, `BlockInv`, `DfModel`, `DfInv`, `DfExchange`, `DfSwap`, `Sift`, `SiftAlg`, `SiftTree`,
  `DfReorder`: variable blocks and depth-first reordering on the graph.
* `Relocate`, `MoveMgr`, `InteractInit`, `DfRealloc`, `DfAux`, `SiftPart`, `DfMain`, `DfEnv`: a whole reordering of a
  manager: collection, conversion to the representation without ids, the interaction matrix, the search, the conversion
  back, moving every node to fresh pages and forwarding handles, associations and pipeline results. `DfEnv` builds an
  environment that runs this code and proves it sound.
* `BfModel`, `BfSim`, `BfGc`, `BfSwap`, `BfZero`, `BfPhase`, `BfClean`, `BfPack`, `BfSift`, `BfMgr`, `BfEnv`:
  breadth-first sifting, with nodes that forward to others, their clean-up and the packing of nodes; `BfEnv` builds an
  environment that runs this code and proves it sound.
* `BfWindow`, `BfReal`, `BfWin`, `BfWin2`, `BfWin3`, `BfRec`, `BfPackM`, `BfVarWin`, `BfWMgr`: breadth-first window
  permutation.
* `Repack`, `RepackMgr`: repacking after a collection; the pages are a parameter (`Rp.Pages`), `Rp.Layout` says how they
  fit the store.
* `Pipeline*`: pipelines.
* `Mem*`: the buddy allocator, on a byte-addressed memory with a movable break; `MemRec*`: record managers on top of it.
* `FnProfile`, `FnProfile2`, `FnProfile3`, `FnProfile4`: function profiles, on the hash tables of `HashTable`.
* `PrintSpec`, `Print`, `PrintLex`, `FnPrint`: printing a BDD as text; `PrintBlow`, `PrintMake`: how long the text gets;
  `PrintProfile`: printing profiles as charts.
* `Demo`: running concrete sessions in the kernel, for the witnesses beside the theorems.

Property theorems are named `Cnn_...`. Those of the API are in `Verif/Props1.lean` to `Props26.lean`; those of
`Bits`, `Rng`, `Interact`, `HashTable`, `NodeManager` and `Cpp` are in the last section of the file. Each has
a concrete case beside it (an `example`, or a witness theorem).

Global simplifications
* Addresses are natural numbers, 0 is the constant node. Equality of edges is equality of id, address
  and complement bit; C compares only the tagged pointer. In a well-formed store the address determines
  the id, so they agree (`EOK.id_eq`). In `DfModel` edges carry no ids, as in the C.
* The hash tables of the unique tables are lists of addresses; `HashTable.lean` shows that the chained
  tables with rehashing behave as such sets.
* Loops get a fuel argument where Lean cannot see termination; the theorem then shows that the fuel given
  by the caller always suffices.

Not modelled: performance tests, printing of statistics (`calBddManager.c`); negative sizes given to `Cal_MemNewRecMgr` (-7 to -1 are rounded up to 0 and lead to a division by zero). Functions that no program reaches are not modelled either: `BddReallocateNodesInPlace` and `CalAlignCollisionChains` (compiled only with `_FOO_`), `CalRequestNodeListArrayITE`, `CalPackNodes` and `CalBddPackNodesForSingleId` (never called), and `Cal_ImageDump` (in no header).

## Per property

| id | what is modelled | how it is proved |
|----|------------------|------------------|
| C01 | store, `Rep` | canonicity by induction on the level; every public operation keeps `WF` |
| C02 | `CalBddOpBF`, `CalHashTableApply`, `CalHashTableReduce`, request queues, terminal cases | invariant of the apply phase top-down and of the reduce phase bottom-up, generic over the payload of a request |
| C03 | `CalBddOpITEBF`, `CalHashTableITEApply`, `CalOpITE` | same engine with triples |
| C04 | `BddMultiwayOp`, `BddArrayToRequestNodeListArray`, `CalRequestNodeListArrayOp` | same engine, operands may be requests of smaller depth |
| C05 | `BddArrayOpBF` | same engine; the code loses work when a later pair has a lower top variable: negation with a witness, and a partial theorem |
| C06 | `CalBddNot`, `Cal_BddIdentity`, `Cal_BddRegular` | algebra on edges |
| C07 | `CalBddGetThenBdd`, `CalBddGetElseBdd`, `Cal_BddIf` | from `Rep` and `WF` |
| C08 | all operations | every operation theorem carries `Pres` and `WF` |
| C09 | refcount macros on 64-bit words | bit-vector algebra, all words |
| C10 | tag macros and the hash macros | bit-vector algebra; addresses are multiples of 32 |
| C11 | refcount updates of all operations | counting invariant |
| C12 | `Cal_BddManagerGC`, `CalHashTableGC` | loop invariant over the index order |
| C13 | same | with exact counts, survivors are reachable (or saturated) |
| C14 C15 C16 | depth-first `BddExistsStep`, `BddRelProdStep` with the cache | induction on the level with cache validity as invariant |
| C17 C18 | `CalCacheTableTwoInsert/Lookup`, GC flush, rehash | validity invariant; hash is an arbitrary function |
| C19 C20 C21 | `BddCofactorBF/DF`, `BddReduceBF`, `Cal_BddBetween` | engine with several queues; induction on the level |
| C22 C23 C24 C25 | `calBddCompose.c`, `calBddSubstitute.c`, `calBddVarSubstitute.c`, `calBddSwapVars.c` | engine with several queues; nested ITE |
| C26 C27 C28 | `calBddSatisfy.c`, `cal.c`, `calBddOp.c` | induction; fraction over the rationals with a rounding function |
| C29 C30 C31 C32 | `calBddSupport.c`, `calBddSize.c`, `cal.c` | traversal with marks: invariant of a DFS |
| C33 C34 | `CalBddManagerCreateNewVar` | preservation of the order invariant |
| C35 C36 | `calAssociation.c` | state machine invariants |
| C37 C38 | `calDump.c` | writer and reader in lockstep; the reader is total on byte streams |
| C39 C42 C43 | `calReorderDF.c` on stores without ids | exchange keeps `Rep` node by node; sifting as a search over a system of states, instantiated with the real exchange |
| C40 | `CalInitInteract`, the trivial exchange of `BddExchange` | the matrix contains exactly the pairs that occur together in a reachable handle; violated for functions held by associations only |
| C41 | `calInteract.c` | index arithmetic |
| C44 | `calBlk.c` | tree invariant |
| C45 | `calPipeline.c`, each pipeline as one transaction | rounds of the engine of C04 with the results of earlier rounds locked |
| C46 C47 C48 | `calUtil.c`, `calGC.c` | decision logic; witnesses where the code ignores a setting |
| C49 | `calHashTable.c`, `calHashTableOne.c`, `calHashTableThree.c`; traversals that change the chains they walk: `CalBddReorderFixUserBddPtrs`, `CalBddReorderFixCofactors` (`calReorderUtil.c:87-135, 458-509`, `HashWalk.lean`), `CalHashTableGC` (`calGC.c:164-204`, `GCBins.lean`) | refinement to finite maps; the traversal that forwards children is proved by an invariant over the bins visited so far (a node that moves to a later bin is visited again, so the forwarding must be complete: assumed in `C49_forward`); garbage collection on chains is shown equal to that of the store |
| C50 | `tempOpCode` | arithmetic, wrap-around witness |
| C51 | `calMemoryManagement.c` | disjointness invariants |
| C52 | `calMem.c` | invariant: a tree of buddies per segment, held and free blocks tile the segments; induction over histories |
| C53 | `CalUtilRandom` | arithmetic over the integers with explicit 64-bit ranges |
| C54 | `CalBddManager` transform | algebra |
| C55 | `calObj.hh` | step machine, counting |
| C56 | session machine over the API | induction over histories |
| C57 | `CalBddReorderAuxDF` with everything it calls | composition of the conversion, the search (as for C42, C43), the relocation and the forwarding; each step keeps `Rep` |
| C58 | `CalRepackNodesAfterGC` (`Repack`, `RepackMgr`), on any layout of the nodes on pages | invariant of the loop over the ids: nodes below the index are in their final state, the rest is untouched; counting gives enough free places; then forwarding as for C57. The same loop with the chained tables (`RepackBins`): every table holds the entries of the store, because a node is in the bin of its old children when it is put into another one |
| C59 | `BddExistsBFPlusDF`, `BddRelProdBFPlusDF` and what they call (`QuantBF`) | invariant of the request queues with temporary cache entries; induction on the index, inside it on the items of a level |
| C60 | `CalBddReorderAuxBF` with everything it calls (`Bf*`), forwarding nodes included; the second half of `BddReorderVarWindow` is dead code, since `even` stays 1 | one breadth-first exchange, with forwarding nodes resolved, is a depth-first exchange (`BfSim`, `BfSwap`); invariant of the search (`BfPhase`, `BfSift`), clean-up and packing as relocations (`BfClean`, `BfPack`); for window permutation an invariant that bounds the levels at which forwarding nodes lie (`BfWin`, `BfWin2`, `BfWin3`), the end of a pass (`BfRec`), packing of many ids (`BfPackM`) |
| C61 | nothing new: `Mgr.gc` and the store | injection of the nodes of a collected store into those of any other store with the same order that has the held functions (`Count`); every node of a collected store is needed by a held function, by induction from the top level down |
| C62 | nothing new: the reorderings of C57 and C60 | two stores with the same order and the same held functions have the same number of nodes unless counts are stuck (`Count`, `DfMono`), so sizes are a function of the order and the search ends where it was least (`SiftMono`); for breadth-first sifting the invariant of the search remembers the order with the least size (`Trail` in `BfSift`), for breadth-first window permutation each window ends in its best order (`BfVarWin`) |
| C63 | `Cal_BddFunctionProfile`, `Cal_BddFunctionProfileMultiple` with the table `calHashTableOne.c` (`FnProfile`) | the first traversal leaves for each edge the least level that refers to it (`FnProfile2`); the second visits each edge once (`FnProfile3`); the edges at level j or below that are referenced from above level j are the functions left, by induction on paths; the sums telescope |
| C64 | `Cal_BddPrintBdd` with marking and numbering of shared nodes, names and indentation (`Print`) | a reader for the text (`PrintSpec`); by induction on the level, for any labels met before, reading the lines printed gives the function and the labels; `PrintLex` reads characters as lines |
| C65 | `Cal_BddFunctionPrint` (`FnPrint`) | a reader; induction on the level; a variable is a byte, which determines it up to 256 |
| C66 | as C64, and `Cal_BddDumpBdd` | that labels are used once follows from the reader; the violation by following the marks of all nodes for a family of functions (`PrintBlow`), and building these BDDs through the API (`PrintMake`) |
| C67 | the record managers of `calMem.c`, with the blocks of C52 as their memory and the free list in the records | invariant: the blocks in use are those of callers, the managers and their blocks of records; every place is held or on the list; induction over histories of blocks and records; the block allocator only through C52 |
| C68 | `calPrintProfile.c`, on top of the profiles of C31 and C63 (`PrintProfile`) | a specification of charts (`Chart`); the first loop by a fold invariant; the scale by division; the counts are those of C31 and C63. Numbers of ten digits or more overrun a buffer: an outcome of its own |
| C69 | the compound operators, difference and `Cal(n)` of `calObj.hh`, as the steps of C55 they are made of (`CppOps`) | each step by C55, the C function by C02; that the temporary does not disturb others by the counts |
| C70 | `C_Bdd_vector`, `BDD::Free` and the functions of ranges | the array of handles is simulated by temporary objects, so that C55 applies to it; what the C function sees is the part before the first null; then C04, C30, C35 |
| C71 | `Profile`, `FunctionProfile`, `From_C_Array` and the Pairwise functions; a vector is its size, its room and what is in its memory | C31 and C63 for what is written; handles made by the C function are never null, so reading goes on behind the end |
| C72 | a ledger of the memory of a manager: the pointers that own blocks and every `malloc`, `realloc` and `free`, with the allocator as a parameter; when a page, a larger table or a repacking is needed is a free choice, so that all executions of the code are included (`Ledger`) | a triple for each function that says which blocks it needs and which it leaves, with a frame (`LedgerOk`); the manager owns each block through one pointer (`LedgerMgr`, `LedgerRun`); for associations also that the last `Cal_AssociationQuit` frees the record and its array (`C72_assoc`) |
| C73 | the arrays over variables with their lengths, entries that were never written, and every place where they are made longer; reading such an entry or touching one outside the array is the outcome `none` (`Arrays`); a list of variables and functions for associations as specification (`ArraysSpec`) | an invariant that relates both after each call, by induction over histories (`ArraysOk`, `ArraysRun`) |
| C74 | `CalCheckAllValidity` and `CalCheckAssoc` as loops over the whole manager, with a failed assertion as outcome `none` or `false` (`Check`); the assertions in depth-first exchanges, with the whole depth-first reordering on top of them (`CheckDf`); not those in breadth-first exchanges, nor those of a pipeline | each loop is a list of decrements or increments; the number of times an address occurs in all lists is what the invariant on counts says (`CheckOk`); no count is zero after reordering, from the invariants of C57 and C60 (`CheckReorder`); under these invariants the exchange with assertions is the one without (`exchangeA_eq`) |

`Env.Sound` is discharged by the real code for depth-first reordering (`C57_env`), breadth-first sifting (`C60_env`) and
window permutation (`C60_window_env`) and repacking (`C58_env`), wherever they are safe, and for the breadth-first
quantifiers (`C59_nothing_assumed`); `C60_code3_sound` puts all of them together.

## Where the code violates a property

Each has a theorem that shows a concrete run, and the property is proved under the missing hypothesis
(suffix `_partial`).

1. C05: `BddArrayOpBF` overwrites `minIndex` with each non-terminal pair; earlier pairs whose top variable
   is higher are left as request nodes (`C05_violated`).
2. C20, C21: `Cal_BddReduce(f, 0)` and `Cal_BddBetween(0, 1)` turn the null edge into a user handle:
   undefined behaviour (`C20_zero_violated`, `C21_all_violated`).
3. C22: composing a constant for a variable into a complemented function is undefined behaviour
   (`C22_constant`, `C22_constant_witness`); the property for functions proper is proved.
4. C24: a complemented value of an association entry loses its phase in `Cal_BddVarSubstitute`
   (`C24_complement_witness`).
5. C38: a label beyond the number of nodes claimed by the header is written behind the table; a claim of
   2^62 nodes overflows the size of the table (`C38_violated`).
6. C41: the size of the interaction matrix overflows an `int` from 46342 variables on (`C41_violated`).
7. C46: the overflow flag set while operands are checked is not seen by the caller (`C46_violated`).
8. C48: `Cal_BddManagerSetGCMode` is not consulted by the collection in `CalBddPostProcessing`
   (`C48_violated`).
9. C50: `tempOpCode` is an `unsigned short` that counts down; after 65536 uses a stale cache entry is
   returned (`C50_violated`).
10. C45: a creation at level 256 is refused after `pipelineDepth` has been raised to 257; `Cal_PipelineExecute` and
   `Cal_PipelineQuit` then read behind `requestNodeListArray` (`C45_deep_violated`). Results are not protected
   between execution and update: after a garbage collection in between, the handle returned denotes nothing
   (`C45_gc_violated`). `Cal_BddCompose` uses the same array of lists: between creation and execution it throws requests
   away, and the first operand is returned as result (`C45_compose_violated`). Read, not modelled: a reordering
   between creation and execution forwards only the first operand of a request; an overflow during the execution leaks
   the references to results so far (modelled by the leak flag); `Cal_PipelineInit` with an unknown operation returns 0
   and leaves the pipeline open; the multiway operations use the same lists.

11. C40, C57: `CalInitInteract` starts from the user's handles only. Variables that occur together only in a value of
   an association do not count as interacting, the exchange of two such variables does not look at their nodes, and
   after sifting the association holds an edge to a node that is no longer there (`C40_violated`).
12. C58: `CalRepackNodesAfterGC` forwards the cache, the handles, the associations and pipeline results, but not
   `varBdds` (`BddReallocateNodes` and the breadth-first code do). If the node of a variable is on a page that is given
   back, the variable dangles (`C58_violated`). The first node of an id is that of its variable, so this needs a
   reordering before, which lays out the nodes in the order of the bins. The witness takes the layout as given.
13. C60: breadth-first sifting has the same gap as item 11: afterwards two unequal handles denote the same function
   (`C60_violated`). It does not look at variable blocks (`C60_blocks_violated`). Forwarding nodes are never returned to
   the node managers, because `CalBddReorderReclaimForwardedNodes` finds `endNode` still pointing to the start of the list
   (`C60_leak`).
14. C60: window permutation packs several ids at once. `CalVarAssociationRepackUpdate` then takes the value of every entry
   for a forwarding node, also if its id has not been packed, and replaces it by its then child (`C60_window_violated`).
15. C63: `Cal_BddFunctionProfileMultiple` marks the functions of the array by inserting them a second time into the hash
   table. When the table grows, the chains are turned round and the old entry is found, so a function of the array that is
   also left of another one is not counted (`C63_violated`, with 1277 BDDs). The counter of the loop over the array is an
   `unsigned short`: with 65536 BDDs or more it does not end (`C63_endless`).
16. C65: `Cal_BddFunctionPrint` prints a variable as one byte, so with 257 variables or more different BDDs print alike
   (`C65_violated`).
17. C66: `CalBddMarkSharedNodes` tests the mark for 1 only, so the third visit of a node sets it back to 1 and goes
   through its successors again. A node met an odd number of times is not numbered as shared and is written in full each
   time. For BDDs of `2 * n + 8` nodes the text and the file have more than `5 * 2 ^ n` characters (`C66_violated`).
18. C68: `Cal_BddPrintFunctionProfile` tests the result of pre-processing the wrong way round: it prints nothing for a BDD
   (`C68_function_violated`) and counts that were never written for null (`C68_function_null_violated`).
19. C69: `operator-` complements its right operand with `Cal_BddNot`, which follows the pointer of a null BDD
   (`C69_diff_null_violated`); the other operators return null.
20. C70: ranges are passed as arrays that end at the first null, so a null object or an id without variable cuts off the
   rest: `And({x, null, y})` is `x` (`C70_null_violated`). Ids are cut to 16 bits.
21. C71: `Profile` and `FunctionProfile` of the C++ class reserve memory and write to it, but the vector returned is empty
   (`C71_profile_violated`). The arrays of the pairwise functions have no null at the end, but `From_C_Array` looks for
   one (`C71_pairwise_violated`); the array is never freed.
22. C72: `CalBddPackNodesForMultipleIds`, which breadth-first window permutation calls, replaces the array of bins of each
   variable it packs and does not free the old one (calHashTable.c:753, `C72_violated`). In the ledger the repacking is a
   choice of the script; the code repacks a variable with more than three pages of which few places are in use. The
   ledger does not say which page of a segment is which: that is the page model of C58.
23. C74: in builds with assertions the leak of `Cal_AssociationInit` with a variable given twice makes the next check stop
   the program (`C74_violated`), and so does sifting with the gap of items 11 and 13 (`C74_violated_reorder`).

Found while reading, outside the listed properties or not yet stated as theorems: `Cal_BddThen/Else/If` on constants read a node that is not one; code 0 entries are
skipped by the cache flush; associations with ids from 0x1000 on share op codes; `Cal_AssociationInit` with a
variable given twice leaks a reference; `Cal_BddDumpBdd` leaks the handles of the support; the loop of `Cal(numVars)` does not end
for 65536 variables or more; free buddies made by padding a segment
are not merged (`C52_coalesce` states what is). `Cal_AssociationInit` counts with an unsigned short, so its loop does not
end for more than 65535 elements. `Cal_ImageDump`, which nothing calls, reads 64 pages of each segment, also of those
that have 4, and one byte behind the end of the last page. The comment in `CalPageManagerQuit` that tells of a double
free is wrong as far as the ledger of C72 goes.
