{
 "C01": {
  "note": "Over every reachable manager: equal functions iff equal handles; every handle denotes one function."
 },
 "C02": {
  "note": "Result function, reference accounting and frame for every pair of live operands; null operand gives null."
 },
 "C56": {
  "note": "Any sequence of legal calls keeps the function of every handle still held."
 },
 "C46": {
  "status": "partial",
  "note": "The overflow flag set while checking operands is lost to the caller: C46_violated gives a run where the call still returns a non-null result. Proved: no limit, no overflow; flag sticky; the limit check itself."
 },
 "C48": {
  "status": "partial",
  "note": "The GC mode set by the user is ignored by the check every operation performs: C48_violated. The only function that looks at it is never called."
 },
 "C50": {
  "status": "partial",
  "note": "Codes are fresh until 65536 uses; then they wrap and a stale entry is returned: C50_violated gives the run."
 },
 "C41": {
  "status": "partial",
  "note": "Proved for up to 46341 variables (the matrix indices then fit a C int). C41_violated: from 46342 to 65534 variables the size n*(n-1) overflows int, undefined behaviour."
 },
 "C53": {
  "note": "Every sequence of seeds and draws; seeds of absolute value below 2147483563 (C53_seed_needed: at the modulus the first sub-generator is stuck at zero)."
 },
 "C54": {
  "note": "All pairs of 64-bit words."
 },
 "C19": {
  "note": "Agreement with f on c, value taken from a point of c elsewhere, exact cofactor for cubes, constant 1 for c = 0, for every reachable manager and every live f, c."
 },
 "C22": {
  "note": "f with the variable replaced, for every f, h and variable. For a constant in place of the variable the code is wrong for complemented handles: C22_constant, C22_constant_witness."
 },
 "C25": {
  "note": "All orders and distances of the two variables, also equal or absent ones; constants give null."
 },
 "C20": {
  "status": "partial",
  "note": "For every satisfiable c: agreement on c, no new variables, size not larger. For c = 0 the call is undefined behaviour for every f: C20_zero_violated."
 },
 "C21": {
  "status": "partial",
  "note": "For every fMin implying fMax except the pair (false, true), for which the call is undefined behaviour: C21_all_violated. Also: not larger than fMin or fMax."
 },
 "C05": {
  "status": "partial",
  "note": "Every array of even length in which the last pair that needs recursion starts at or above the others in the variable order (always so for one pair); null array for odd or empty input. Otherwise the code is wrong: C05_violated, for a, b, b, c the first result is an unprocessed request node."
 },
 "C23": {
  "status": "proved",
  "note": "For every current association (temporary or not), including cyclic ones; the call sets no overflow flag as it does no post-processing."
 },
 "C24": {
  "status": "proved",
  "note": "For every current association to variables and constants, including cyclic and order-violating ones, with the computed table; agrees with Cal_BddSubstitute. C24_complement_witness: with a complemented value the phase is lost."
 },
 "C37": {
  "note": "For every live function and every array: a file is written exactly if the array has distinct variables covering the support; it reads back, in any reachable manager, as the function renamed position by position; in the same manager as the same handle. Assumes at most 2^32 nodes and memory for the table."
 },
 "C38": {
  "status": "partial",
  "note": "C38_violated: a file that labels more nodes than its header claims writes behind the table, and one that claims 2^62 nodes overflows the size. Proved for every byte stream with at most as many bytes 6 as claimed nodes and memory for the table: a BDD or an error, nothing else changed."
 },
 "C52": {
  "note": "Any sequence of legal calls, writes of callers and moves of the break by others, from any memory: blocks held are disjoint, aligned, inside memory given by the system; contents kept; no undefined behaviour; a request once served is served again without new memory whenever no block is held."
 },
 "C45": {
  "status": "partial",
  "note": "Proved for pipelines of at most 256 levels with no other call between initialisation and quit; a deeper chain makes Quit read outside the array of lists (C45_deep_violated). With other calls in between it is wrong: a garbage collection before the update frees the results (C45_gc_violated), a composition before the execution throws the requests away (C45_compose_violated). All depth settings, all operations, all operand shapes, any sequence of pipelines and calls."
 },
 "C40": {
  "status": "partial",
  "note": "C40_violated: a BDD held only by an association is not seen by the interaction matrix, the shortcut is taken across a live edge and the association ends up with a dangling edge. Proved for every state in which functions kept only by associations or stuck counts depend on no pair of variables that no held handle depends on, up to 46341 variables; C40_matrix says exactly what the matrix contains."
 },
 "C57": {
  "status": "partial",
  "note": "The whole of CalBddReorderAuxDF. Sifting: total, all block trees and limits. Window permutation: whenever its loops end (they do unless a node gets stuck: C62_window_ends_partial). Assumes what C40 needs (false without: C40_violated). C57_env: an environment that reorders with the real code is sound, so all session theorems hold with it."
 },
 "C58": {
  "status": "partial",
  "note": "The whole of CalRepackNodesAfterGC, for every layout on pages; C58_bins: with the chained unique tables, whose bin arrays shrink and whose nodes change bins. Assumes that the node of each variable lies on a page that is kept: the code does not forward varBdds (C58_violated), and that the threshold is at most 1. C58_env: an environment that repacks with the real code is sound, so all session theorems hold with it."
 },
 "C59": {
  "note": "QB.existsBF/QB.relProdBF transcribe the code; the API functions with the algorithm as a parameter show the same function and the same handle for both. That nothing temporary is left is in the invariant every later theorem relies on (Env.bf_sound: WF, exact reference counts, valid cache)."
 },
 "C60": {
  "status": "partial",
  "note": "CalBddReorderAuxBF and all it calls, for all limits and, with sifting, whatever is packed. Window permutation (C60_window_partial): whenever it ends (it does unless a node gets stuck: C62_bf_window_ends_partial), and unless several ids are packed while an association has a value that is not constant (false without: C60_window_violated). Assumes what C40 needs (false without: C60_violated). Blocks are not respected (C60_blocks_violated) and forwarding nodes are lost (C60_leak). C60_env, C60_window_env, C60_code3_sound: an environment that reorders with the real code is sound, so all session theorems hold with it."
 },
 "C61": {
  "note": "C61_least compares a collected manager with any reachable state of any manager with the same order that has BDDs for the held functions; C61_same is the equality for two collected managers. Held are handles, association values and functions whose counts are stuck at the maximum (8 bit counts)."
 },
 "C62": {
  "status": "partial",
  "note": "Depth-first sifting and window permutation (C62_df_partial), breadth-first sifting (C62_bf_partial) and window permutation (C62_bf_window_partial), termination of window permutation (C62_window_ends_partial, C62_bf_window_ends_partial). Assumes what C40 needs, and that no function is stuck (8 bit counts at their maximum) unless a handle, a variable or an association has it: nodes that become stuck during the search cannot be freed."
 },
 "C63": {
  "status": "partial",
  "note": "Full for Cal_BddFunctionProfile (C63_profile, C63_null). For Cal_BddFunctionProfileMultiple if the functions left and the BDDs of the array are together less than 1280, or no function of the array is left of another one (C63_multiple_partial); otherwise the code is wrong (C63_violated), and it does not end for 65536 BDDs or more (C63_endless)."
 },
 "C64": {
  "status": "proved",
  "note": "Default names (C64_text), any naming functions (C64_names), same text only for equal BDDs (C64_injective). The null handle is outside: the code uses a null pointer. C64_text includes that marks are clear at the end."
 },
 "C65": {
  "status": "partial",
  "note": "With at most 256 variables (C65_text_partial). With more, different BDDs can print alike (C65_violated)."
 },
 "C66": {
  "status": "partial",
  "note": "Proved: nodes that have a label are printed in full once (C66_labels_partial). The property as stated is false: a family of BDDs of 2n+8 nodes whose texts and files have more than 5*2^n characters (C66_long, C66_violated)."
 },
 "C68": {
  "status": "partial",
  "note": "Full for Cal_BddPrintProfile and its variant for arrays (C68_profile, C68_profileMultiple), up to counts of nine digits; more overrun a buffer. For arrays of functions where the function profile is right (C68_functionMultiple_partial, see C63). Cal_BddPrintFunctionProfile prints nothing (C68_function_violated) and for null garbage (C68_function_null_violated)."
 },
 "C67": {
  "note": "Records and blocks from one allocator; all histories of legal calls. The blocks are those of C52."
 },
 "C69": {
  "status": "partial",
  "note": "Full for operands that are not null and, with null operands, for &=, |=, ^= and ==. A null right operand of - or -= is followed as a pointer (C69_diff_null_violated)."
 },
 "C70": {
  "status": "partial",
  "note": "The result is that of the part of the range before the first null object or invalid id (all of it if there is none). Null objects do not make the result null (C70_null_violated)."
 },
 "C71": {
  "status": "partial",
  "note": "The counts are computed and written within the memory reserved (C71_profile_partial, C71_functionProfile_partial), but the vector returned is always empty (C71_profile_violated). The Pairwise functions never return results: they read behind the end of the array or from a null pointer, or (overflow) return an empty vector (C71_pairwise_violated)."
 },
 "C72": {
  "status": "partial",
  "note": "No double free and no use of freed pages, arrays or records in any program, and what remains after quitting is exactly the user's arrays and at most one block for each level repacked by CalBddPackNodesForMultipleIds (C72_quit_partial); nothing without such repackings (C72_all_partial). The replaced array of bins is never freed there (C72_violated). C72_assoc: an association gives back its memory when it has been quit as often as it was initialised."
 },
 "C73": {
  "status": "proved",
  "note": "For every legal history no access is outside an array or to an unset entry, and all arrays agree with a list of variables and functions. Calls are legal if their arguments are variables of the manager. Creating a variable beyond 65534 or with an index that is too large changes nothing."
 },
 "C74": {
  "status": "partial",
  "note": "Without leaks the reference counts pass the check in every reachable state, and all checks pass after a garbage collection, after repacking, and after sifting and window permutation (with handles for all functions of associations); the checks of associations and of single nodes pass also with leaks (C74_associations, C74_nodes). They fail after Cal_AssociationInit with a variable given twice (C74_violated), and after sifting when only an association holds a function (C74_violated_reorder). No assertion inside of depth-first exchanges fails, in any state that exchanges lead to (C74_exchange_partial), and depth-first sifting with all of its assertions succeeds (C74_asserts_partial). Not covered: the assertions in breadth-first exchanges, and in the middle of a pipeline."
 },
 "C49": {
  "status": "proved",
  "note": "C49_forward: traversals that put nodes in other bins while they walk the table (for any complete forwarding); C49_gc: garbage collection on the chained tables equals that of the store."
 }
}