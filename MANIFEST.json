{
 "claims": [
  {
   "property": "C01",
   "status": "proved",
   "theorems": [
    "Cal.C01_canonical",
    "Cal.C01_denotes",
    "Cal.C01_constants"
   ],
   "note": "Over every reachable manager: equal functions iff equal handles; every handle denotes one function."
  },
  {
   "property": "C02",
   "status": "proved",
   "theorems": [
    "Cal.C02_and",
    "Cal.C02_nand",
    "Cal.C02_or",
    "Cal.C02_nor",
    "Cal.C02_xor",
    "Cal.C02_xnor",
    "Cal.C02_null"
   ],
   "note": "Result function, reference accounting and frame for every pair of live operands; null operand gives null."
  },
  {
   "property": "C03",
   "status": "proved",
   "theorems": [
    "Cal.C03_ite"
   ],
   "note": ""
  },
  {
   "property": "C04",
   "status": "proved",
   "theorems": [
    "Cal.C04_multiwayAnd",
    "Cal.C04_multiwayOr",
    "Cal.C04_multiwayXor"
   ],
   "note": ""
  },
  {
   "property": "C05",
   "status": "partial",
   "theorems": [
    "Cal.C05_and_partial",
    "Cal.C05_or_partial",
    "Cal.C05_xor_partial",
    "Cal.C05_single",
    "Cal.C05_odd",
    "Cal.C05_violated"
   ],
   "note": "Every array of even length in which the last pair that needs recursion starts at or above the others in the variable order (always so for one pair); null array for odd or empty input. Otherwise the code is wrong: C05_violated, for a, b, b, c the first result is an unprocessed request node."
  },
  {
   "property": "C06",
   "status": "proved",
   "theorems": [
    "Cal.C06_not",
    "Cal.C06_not_not",
    "Cal.C06_identity",
    "Cal.C06_regular"
   ],
   "note": ""
  },
  {
   "property": "C07",
   "status": "proved",
   "theorems": [
    "Cal.C07_shannon"
   ],
   "note": ""
  },
  {
   "property": "C08",
   "status": "proved",
   "theorems": [
    "Cal.C08_frame",
    "Cal.C08_reduced"
   ],
   "note": ""
  },
  {
   "property": "C09",
   "status": "proved",
   "theorems": [
    "Cal.Bits.C09_encoding",
    "Cal.Bits.C09_readback",
    "Cal.Bits.C09_increment",
    "Cal.Bits.C09_decrement",
    "Cal.Bits.C09_add",
    "Cal.Bits.C09_tests"
   ],
   "note": ""
  },
  {
   "property": "C10",
   "status": "proved",
   "theorems": [
    "Cal.Bits.C10_get",
    "Cal.Bits.C10_put",
    "Cal.Bits.C10_mark",
    "Cal.Bits.C10_pointers",
    "Cal.Bits.C10_forward"
   ],
   "note": ""
  },
  {
   "property": "C11",
   "status": "proved",
   "theorems": [
    "Cal.C11_exact",
    "Cal.C11_lower",
    "Cal.C11_vars"
   ],
   "note": ""
  },
  {
   "property": "C12",
   "status": "proved",
   "theorems": [
    "Cal.C12_safe"
   ],
   "note": ""
  },
  {
   "property": "C13",
   "status": "proved",
   "theorems": [
    "Cal.C13_complete"
   ],
   "note": ""
  },
  {
   "property": "C14",
   "status": "proved",
   "theorems": [
    "Cal.C14_exists"
   ],
   "note": ""
  },
  {
   "property": "C15",
   "status": "proved",
   "theorems": [
    "Cal.C15_forAll"
   ],
   "note": ""
  },
  {
   "property": "C16",
   "status": "proved",
   "theorems": [
    "Cal.C16_relProd"
   ],
   "note": ""
  },
  {
   "property": "C17",
   "status": "proved",
   "theorems": [
    "Cal.C17_transparent",
    "Cal.C17_lookup",
    "Cal.C17_hit"
   ],
   "note": ""
  },
  {
   "property": "C18",
   "status": "proved",
   "theorems": [
    "Cal.C18_exist",
    "Cal.C18_right"
   ],
   "note": ""
  },
  {
   "property": "C19",
   "status": "proved",
   "theorems": [
    "Cal.C19_cofactor",
    "Cal.C19_cube",
    "Cal.C19_zero"
   ],
   "note": "Agreement with f on c, value taken from a point of c elsewhere, exact cofactor for cubes, constant 1 for c = 0, for every reachable manager and every live f, c."
  },
  {
   "property": "C20",
   "status": "partial",
   "theorems": [
    "Cal.C20_reduce_partial",
    "Cal.C20_zero_violated"
   ],
   "note": "For every satisfiable c: agreement on c, no new variables, size not larger. For c = 0 the call is undefined behaviour for every f: C20_zero_violated."
  },
  {
   "property": "C21",
   "status": "partial",
   "theorems": [
    "Cal.C21_between_partial",
    "Cal.C21_all_violated"
   ],
   "note": "For every fMin implying fMax except the pair (false, true), for which the call is undefined behaviour: C21_all_violated. Also: not larger than fMin or fMax."
  },
  {
   "property": "C22",
   "status": "proved",
   "theorems": [
    "Cal.C22_compose",
    "Cal.C22_compose_top",
    "Cal.C22_constant",
    "Cal.C22_constant_witness"
   ],
   "note": "f with the variable replaced, for every f, h and variable. For a constant in place of the variable the code is wrong for complemented handles: C22_constant, C22_constant_witness."
  },
  {
   "property": "C23",
   "status": "proved",
   "theorems": [
    "Cal.C23_substitute",
    "Cal.C23_value"
   ],
   "note": "For every current association (temporary or not), including cyclic ones; the call sets no overflow flag as it does no post-processing."
  },
  {
   "property": "C24",
   "status": "proved",
   "theorems": [
    "Cal.C24_varSubstitute",
    "Cal.C24_rename",
    "Cal.C24_substitute",
    "Cal.C24_complement_witness"
   ],
   "note": "For every current association to variables and constants, including cyclic and order-violating ones, with the computed table; agrees with Cal_BddSubstitute. C24_complement_witness: with a complemented value the phase is lost."
  },
  {
   "property": "C25",
   "status": "proved",
   "theorems": [
    "Cal.C25_swapVars",
    "Cal.C25_constant"
   ],
   "note": "All orders and distances of the two variables, also equal or absent ones; constants give null."
  },
  {
   "property": "C26",
   "status": "proved",
   "theorems": [
    "Cal.C26_satisfy",
    "Cal.C26_satisfySupport"
   ],
   "note": ""
  },
  {
   "property": "C27",
   "status": "proved",
   "theorems": [
    "Cal.C27_fraction",
    "Cal.C27_assignments"
   ],
   "note": ""
  },
  {
   "property": "C28",
   "status": "proved",
   "theorems": [
    "Cal.C28_intersects",
    "Cal.C28_implies"
   ],
   "note": ""
  },
  {
   "property": "C29",
   "status": "proved",
   "theorems": [
    "Cal.C29_support",
    "Cal.C29_dependsOn",
    "Cal.C29_dependsOn_top",
    "Cal.C29_marks"
   ],
   "note": ""
  },
  {
   "property": "C30",
   "status": "proved",
   "theorems": [
    "Cal.C30_size",
    "Cal.C30_sizeMultiple",
    "Cal.C30_not",
    "Cal.C30_marks"
   ],
   "note": ""
  },
  {
   "property": "C31",
   "status": "proved",
   "theorems": [
    "Cal.C31_profile",
    "Cal.C31_profileMultiple",
    "Cal.C31_sum"
   ],
   "note": ""
  },
  {
   "property": "C32",
   "status": "proved",
   "theorems": [
    "Cal.C32_type",
    "Cal.C32_isCube"
   ],
   "note": ""
  },
  {
   "property": "C33",
   "status": "proved",
   "theorems": [
    "Cal.C33_first",
    "Cal.C33_last",
    "Cal.C33_beside",
    "Cal.C33_beside_const"
   ],
   "note": ""
  },
  {
   "property": "C34",
   "status": "proved",
   "theorems": [
    "Cal.C34_order",
    "Cal.C34_withId",
    "Cal.C34_withIndex",
    "Cal.C34_getIf"
   ],
   "note": ""
  },
  {
   "property": "C35",
   "status": "proved",
   "theorems": [
    "Cal.C35_init",
    "Cal.C35_init_illegal",
    "Cal.C35_quit",
    "Cal.C35_setCurrent",
    "Cal.C35_count"
   ],
   "note": ""
  },
  {
   "property": "C36",
   "status": "proved",
   "theorems": [
    "Cal.C36_init",
    "Cal.C36_augment",
    "Cal.C36_quit",
    "Cal.C36_illegal",
    "Cal.C36_last"
   ],
   "note": ""
  },
  {
   "property": "C37",
   "status": "proved",
   "theorems": [
    "Cal.C37_dump_writes",
    "Cal.C37_roundtrip",
    "Cal.C37_same_bdd"
   ],
   "note": "For every live function and every array: a file is written exactly if the array has distinct variables covering the support; it reads back, in any reachable manager, as the function renamed position by position; in the same manager as the same handle. Assumes at most 2^32 nodes and memory for the table."
  },
  {
   "property": "C38",
   "status": "partial",
   "theorems": [
    "Cal.C38_violated",
    "Cal.C38_total_partial"
   ],
   "note": "C38_violated: a file that labels more nodes than its header claims writes behind the table, and one that claims 2^62 nodes overflows the size. Proved for every byte stream with at most as many bytes 6 as claimed nodes and memory for the table: a BDD or an error, nothing else changed."
  },
  {
   "property": "C39",
   "status": "proved",
   "theorems": [
    "Cal.C39_exchange"
   ],
   "note": ""
  },
  {
   "property": "C40",
   "status": "partial",
   "theorems": [
    "Cal.C40_matrix",
    "Cal.C40_shortcut_partial",
    "Cal.C40_violated"
   ],
   "note": "C40_violated: a BDD held only by an association is not seen by the interaction matrix, the shortcut is taken across a live edge and the association ends up with a dangling edge. Proved for every state in which functions kept only by associations or stuck counts depend on no pair of variables that no held handle depends on, up to 46341 variables; C40_matrix says exactly what the matrix contains."
  },
  {
   "property": "C41",
   "status": "partial",
   "theorems": [
    "Cal.Interact.C41_set_partial",
    "Cal.Interact.C41_violated"
   ],
   "note": "Proved for up to 46341 variables (the matrix indices then fit a C int). C41_violated: from 46342 to 65534 variables the size n*(n-1) overflows int, undefined behaviour."
  },
  {
   "property": "C42",
   "status": "proved",
   "theorems": [
    "Cal.C42_blocks",
    "Cal.C42_store"
   ],
   "note": ""
  },
  {
   "property": "C43",
   "status": "proved",
   "theorems": [
    "Cal.C43_window2",
    "Cal.C43_window3",
    "Cal.C43_siftBlock",
    "Cal.C43_sift",
    "Cal.C43_window"
   ],
   "note": ""
  },
  {
   "property": "C44",
   "status": "proved",
   "theorems": [
    "Cal.C44_tree",
    "Cal.C44_newVar",
    "Cal.C44_newBlock"
   ],
   "note": ""
  },
  {
   "property": "C45",
   "status": "partial",
   "theorems": [
    "Cal.C45_one_by_one",
    "Cal.C45_pipeline_partial",
    "Cal.C45_no_limit",
    "Cal.C45_same_handle",
    "Cal.C45_deep_violated",
    "Cal.C45_gc_violated",
    "Cal.C45_compose_violated"
   ],
   "note": "Proved for pipelines of at most 256 levels with no other call between initialisation and quit; a deeper chain makes Quit read outside the array of lists (C45_deep_violated). With other calls in between it is wrong: a garbage collection before the update frees the results (C45_gc_violated), a composition before the execution throws the requests away (C45_compose_violated). All depth settings, all operations, all operand shapes, any sequence of pipelines and calls."
  },
  {
   "property": "C46",
   "status": "partial",
   "theorems": [
    "Cal.C46_noLimit",
    "Cal.C46_sticky",
    "Cal.C46_set",
    "Cal.C46_check_partial",
    "Cal.C46_violated"
   ],
   "note": "The overflow flag set while checking operands is lost to the caller: C46_violated gives a run where the call still returns a non-null result. Proved: no limit, no overflow; flag sticky; the limit check itself."
  },
  {
   "property": "C47",
   "status": "proved",
   "theorems": [
    "Cal.C47_limit"
   ],
   "note": ""
  },
  {
   "property": "C48",
   "status": "partial",
   "theorems": [
    "Cal.C48_check_partial",
    "Cal.C48_violated"
   ],
   "note": "The GC mode set by the user is ignored by the check every operation performs: C48_violated. The only function that looks at it is never called."
  },
  {
   "property": "C49",
   "status": "proved",
   "theorems": [
    "Cal.Hash.C49_refines",
    "Cal.Hash.C49_rehash",
    "Cal.Hash.C49_any_hash",
    "Cal.Hash.C49_complement",
    "Cal.Hash.C49_store",
    "Cal.C49_forward",
    "Cal.C49_gc"
   ],
   "note": "C49_forward: traversals that put nodes in other bins while they walk the table (for any complete forwarding); C49_gc: garbage collection on the chained tables equals that of the store."
  },
  {
   "property": "C50",
   "status": "partial",
   "theorems": [
    "Cal.C50_fresh_partial",
    "Cal.C50_violated"
   ],
   "note": "Codes are fresh until 65536 uses; then they wrap and a stale entry is returned: C50_violated gives the run."
  },
  {
   "property": "C51",
   "status": "proved",
   "theorems": [
    "Cal.Pages.C51_fresh",
    "Cal.Pages.C51_disjoint",
    "Cal.Pages.C51_no_leak",
    "Cal.Pages.C51_reuse"
   ],
   "note": ""
  },
  {
   "property": "C52",
   "status": "proved",
   "theorems": [
    "Cal.Mem.C52_disjoint",
    "Cal.Mem.C52_inside",
    "Cal.Mem.C52_allocation",
    "Cal.Mem.C52_defined",
    "Cal.Mem.C52_get",
    "Cal.Mem.C52_free",
    "Cal.Mem.C52_resize",
    "Cal.Mem.C52_reuse",
    "Cal.Mem.C52_coalesce"
   ],
   "note": "Any sequence of legal calls, writes of callers and moves of the break by others, from any memory: blocks held are disjoint, aligned, inside memory given by the system; contents kept; no undefined behaviour; a request once served is served again without new memory whenever no block is held."
  },
  {
   "property": "C53",
   "status": "proved",
   "theorems": [
    "Cal.Rng.C53_range",
    "Cal.Rng.C53_schrage",
    "Cal.Rng.C53_seed_needed"
   ],
   "note": "Every sequence of seeds and draws; seeds of absolute value below 2147483563 (C53_seed_needed: at the modulus the first sub-generator is stuck at zero)."
  },
  {
   "property": "C54",
   "status": "proved",
   "theorems": [
    "Cal.Terminal.C54_negate",
    "Cal.Terminal.C54_involution"
   ],
   "note": "All pairs of 64-bit words."
  },
  {
   "property": "C55",
   "status": "proved",
   "theorems": [
    "Cal.Cpp.C55_total",
    "Cal.Cpp.C55_balance",
    "Cal.Cpp.C55_meaning",
    "Cal.Cpp.C55_moved"
   ],
   "note": ""
  },
  {
   "property": "C56",
   "status": "proved",
   "theorems": [
    "Cal.C56_history"
   ],
   "note": "Any sequence of legal calls keeps the function of every handle still held."
  },
  {
   "property": "C57",
   "status": "partial",
   "theorems": [
    "Cal.C57_sift_partial",
    "Cal.C57_window_partial",
    "Cal.C57_env",
    "Cal.C57_call_partial"
   ],
   "note": "The whole of CalBddReorderAuxDF. Sifting: total, all block trees and limits. Window permutation: whenever its loops end (they do unless a node gets stuck: C62_window_ends_partial). Assumes what C40 needs (false without: C40_violated). C57_env: an environment that reorders with the real code is sound, so all session theorems hold with it."
  },
  {
   "property": "C58",
   "status": "partial",
   "theorems": [
    "Cal.C58_repack_partial",
    "Cal.C58_pipeline_partial",
    "Cal.C58_pages",
    "Cal.C58_env",
    "Cal.C58_violated",
    "Cal.C58_bins"
   ],
   "note": "The whole of CalRepackNodesAfterGC, for every layout on pages; C58_bins: with the chained unique tables, whose bin arrays shrink and whose nodes change bins. Assumes that the node of each variable lies on a page that is kept: the code does not forward varBdds (C58_violated), and that the threshold is at most 1. C58_env: an environment that repacks with the real code is sound, so all session theorems hold with it."
  },
  {
   "property": "C59",
   "status": "proved",
   "theorems": [
    "Cal.C59_exists",
    "Cal.C59_forAll",
    "Cal.C59_relProd",
    "Cal.C59_same",
    "Cal.C59_choice",
    "Cal.C59_nothing_assumed",
    "Cal.C59_code_sound"
   ],
   "note": "QB.existsBF/QB.relProdBF transcribe the code; the API functions with the algorithm as a parameter show the same function and the same handle for both. That nothing temporary is left is in the invariant every later theorem relies on (Env.bf_sound: WF, exact reference counts, valid cache)."
  },
  {
   "property": "C60",
   "status": "partial",
   "theorems": [
    "Cal.C60_sift_partial",
    "Cal.C60_pipeline_partial",
    "Cal.C60_env",
    "Cal.C60_code_sound",
    "Cal.C60_call_partial",
    "Cal.C60_violated",
    "Cal.C60_blocks_violated",
    "Cal.C60_leak",
    "Cal.C60_window_partial",
    "Cal.C60_window_pipeline_partial",
    "Cal.C60_window_env",
    "Cal.C60_code3_sound",
    "Cal.C60_window_violated"
   ],
   "note": "CalBddReorderAuxBF and all it calls, for all limits and, with sifting, whatever is packed. Window permutation (C60_window_partial): whenever it ends (it does unless a node gets stuck: C62_bf_window_ends_partial), and unless several ids are packed while an association has a value that is not constant (false without: C60_window_violated). Assumes what C40 needs (false without: C60_violated). Blocks are not respected (C60_blocks_violated) and forwarding nodes are lost (C60_leak). C60_env, C60_window_env, C60_code3_sound: an environment that reorders with the real code is sound, so all session theorems hold with it."
  },
  {
   "property": "C61",
   "status": "proved",
   "theorems": [
    "Cal.C61_least",
    "Cal.C61_same"
   ],
   "note": "C61_least compares a collected manager with any reachable state of any manager with the same order that has BDDs for the held functions; C61_same is the equality for two collected managers. Held are handles, association values and functions whose counts are stuck at the maximum (8 bit counts)."
  },
  {
   "property": "C62",
   "status": "partial",
   "theorems": [
    "Cal.C62_df_partial",
    "Cal.C62_bf_partial",
    "Cal.C62_window_ends_partial",
    "Cal.C62_bf_window_partial",
    "Cal.C62_bf_window_ends_partial"
   ],
   "note": "Depth-first sifting and window permutation (C62_df_partial), breadth-first sifting (C62_bf_partial) and window permutation (C62_bf_window_partial), termination of window permutation (C62_window_ends_partial, C62_bf_window_ends_partial). Assumes what C40 needs, and that no function is stuck (8 bit counts at their maximum) unless a handle, a variable or an association has it: nodes that become stuck during the search cannot be freed."
  },
  {
   "property": "C63",
   "status": "partial",
   "theorems": [
    "Cal.C63_profile",
    "Cal.C63_null",
    "Cal.C63_multiple_partial",
    "Cal.C63_endless",
    "Cal.C63_copy",
    "Cal.C63_violated"
   ],
   "note": "Full for Cal_BddFunctionProfile (C63_profile, C63_null). For Cal_BddFunctionProfileMultiple if the functions left and the BDDs of the array are together less than 1280, or no function of the array is left of another one (C63_multiple_partial); otherwise the code is wrong (C63_violated), and it does not end for 65536 BDDs or more (C63_endless)."
  },
  {
   "property": "C64",
   "status": "proved",
   "theorems": [
    "Cal.C64_text",
    "Cal.C64_names",
    "Cal.C64_injective"
   ],
   "note": "Default names (C64_text), any naming functions (C64_names), same text only for equal BDDs (C64_injective). The null handle is outside: the code uses a null pointer. C64_text includes that marks are clear at the end."
  },
  {
   "property": "C65",
   "status": "partial",
   "theorems": [
    "Cal.C65_text_partial",
    "Cal.C65_violated"
   ],
   "note": "With at most 256 variables (C65_text_partial). With more, different BDDs can print alike (C65_violated)."
  },
  {
   "property": "C66",
   "status": "partial",
   "theorems": [
    "Cal.C66_labels_partial",
    "Cal.C66_long",
    "Cal.C66_violated"
   ],
   "note": "Proved: nodes that have a label are printed in full once (C66_labels_partial). The property as stated is false: a family of BDDs of 2n+8 nodes whose texts and files have more than 5*2^n characters (C66_long, C66_violated)."
  },
  {
   "property": "C67",
   "status": "proved",
   "theorems": [
    "Cal.Mem.C67_disjoint",
    "Cal.Mem.C67_blocks",
    "Cal.Mem.C67_own",
    "Cal.Mem.C67_inside",
    "Cal.Mem.C67_defined",
    "Cal.Mem.C67_manager",
    "Cal.Mem.C67_record",
    "Cal.Mem.C67_keep",
    "Cal.Mem.C67_reuse",
    "Cal.Mem.C67_free",
    "Cal.Mem.C67_release",
    "Cal.Mem.C67_coalesce"
   ],
   "note": "Records and blocks from one allocator; all histories of legal calls. The blocks are those of C52."
  },
  {
   "property": "C68",
   "status": "partial",
   "theorems": [
    "Cal.C68_profile",
    "Cal.C68_profileMultiple",
    "Cal.C68_functionMultiple_partial",
    "Cal.C68_width",
    "Cal.C68_null",
    "Cal.C68_function_violated",
    "Cal.C68_function_null_violated"
   ],
   "note": "Full for Cal_BddPrintProfile and its variant for arrays (C68_profile, C68_profileMultiple), up to counts of nine digits; more overrun a buffer. For arrays of functions where the function profile is right (C68_functionMultiple_partial, see C63). Cal_BddPrintFunctionProfile prints nothing (C68_function_violated) and for null garbage (C68_function_null_violated)."
  },
  {
   "property": "C69",
   "status": "partial",
   "theorems": [
    "Cal.Cpp.C69_andAssign",
    "Cal.Cpp.C69_orAssign",
    "Cal.Cpp.C69_xorAssign",
    "Cal.Cpp.C69_diff_partial",
    "Cal.Cpp.C69_diffAssign_partial",
    "Cal.Cpp.C69_null",
    "Cal.Cpp.C69_diff_null_violated",
    "Cal.Cpp.C69_equal",
    "Cal.Cpp.C69_newVars"
   ],
   "note": "Full for operands that are not null and, with null operands, for &=, |=, ^= and ==. A null right operand of - or -= is followed as a pointer (C69_diff_null_violated)."
  },
  {
   "property": "C70",
   "status": "partial",
   "theorems": [
    "Cal.Cpp.C70_and_partial",
    "Cal.Cpp.C70_or_partial",
    "Cal.Cpp.C70_xor_partial",
    "Cal.Cpp.C70_null_violated",
    "Cal.Cpp.C70_empty",
    "Cal.Cpp.C70_size_partial",
    "Cal.Cpp.C70_association_partial"
   ],
   "note": "The result is that of the part of the range before the first null object or invalid id (all of it if there is none). Null objects do not make the result null (C70_null_violated)."
  },
  {
   "property": "C71",
   "status": "partial",
   "theorems": [
    "Cal.Cpp.C71_profile_partial",
    "Cal.Cpp.C71_functionProfile_partial",
    "Cal.Cpp.C71_profile_violated",
    "Cal.Cpp.C71_pairwise_violated"
   ],
   "note": "The counts are computed and written within the memory reserved (C71_profile_partial, C71_functionProfile_partial), but the vector returned is always empty (C71_profile_violated). The Pairwise functions never return results: they read behind the end of the array or from a null pointer, or (overflow) return an empty vector (C71_pairwise_violated)."
  },
  {
   "property": "C72",
   "status": "partial",
   "theorems": [
    "Cal.Ledger.C72_quit_partial",
    "Cal.Ledger.C72_all_partial",
    "Cal.Ledger.C72_violated",
    "Cal.Ledger.C72_assoc"
   ],
   "note": "No double free and no use of freed pages, arrays or records in any program, and what remains after quitting is exactly the user's arrays and at most one block for each level repacked by CalBddPackNodesForMultipleIds (C72_quit_partial); nothing without such repackings (C72_all_partial). The replaced array of bins is never freed there (C72_violated). C72_assoc: an association gives back its memory when it has been quit as often as it was initialised."
  },
  {
   "property": "C73",
   "status": "proved",
   "theorems": [
    "Cal.Arrays.C73_variables",
    "Cal.Arrays.C73_associations",
    "Cal.Arrays.C73_order"
   ],
   "note": "For every legal history no access is outside an array or to an unset entry, and all arrays agree with a list of variables and functions. Calls are legal if their arguments are variables of the manager. Creating a variable beyond 65534 or with an index that is too large changes nothing."
  },
  {
   "property": "C74",
   "status": "partial",
   "theorems": [
    "Cal.C74_counts_partial",
    "Cal.C74_collected_partial",
    "Cal.C74_associations",
    "Cal.C74_nodes",
    "Cal.C74_bf_partial",
    "Cal.C74_df_partial",
    "Cal.C74_window_partial",
    "Cal.C74_repack_partial",
    "Cal.C74_violated",
    "Cal.C74_violated_reorder",
    "Cal.C74_exchange_partial",
    "Cal.C74_asserts_partial"
   ],
   "note": "Without leaks the reference counts pass the check in every reachable state, and all checks pass after a garbage collection, after repacking, and after sifting and window permutation (with handles for all functions of associations); the checks of associations and of single nodes pass also with leaks (C74_associations, C74_nodes). They fail after Cal_AssociationInit with a variable given twice (C74_violated), and after sifting when only an association holds a function (C74_violated_reorder). No assertion inside of depth-first exchanges fails, in any state that exchanges lead to (C74_exchange_partial), and depth-first sifting with all of its assertions succeeds (C74_asserts_partial). Not covered: the assertions in breadth-first exchanges, and in the middle of a pipeline."
  }
 ]
}