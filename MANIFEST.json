{
 "claims": [
  {
   "property": "C01",
   "status": "proved",
   "theorems": [
    "NC.C01_step",
    "NC.C01_init",
    "NC.C01_history",
    "NC.C01_more_modules_than_nodes_overflows",
    "NC.C01_self_merge_breaks"
   ],
   "note": "Legal edits only; merging a module with itself and M > N are outside the contract and shown to break."
  },
  {
   "property": "C02",
   "status": "proved",
   "theorems": [
    "NC.C02_dEChangeModule_exact"
   ],
   "note": ""
  },
  {
   "property": "C03",
   "status": "proved",
   "theorems": [
    "NC.C03_dEMergeModules_exact"
   ],
   "note": ""
  },
  {
   "property": "C04",
   "status": "proved",
   "theorems": [
    "NC.C04_modularity"
   ],
   "note": ""
  },
  {
   "property": "C05",
   "status": "proved",
   "theorems": [
    "NC.C05_compress"
   ],
   "note": ""
  },
  {
   "property": "C06",
   "status": "proved",
   "theorems": [
    "NC.C06_rows",
    "NC.C06_strengths_sum_to_one",
    "NC.C06_represents",
    "NC.C06_self_loop_breaks"
   ],
   "note": "Rows, strengths, normalisation and symmetric matrix for every loop-free edge list; C06_self_loop_breaks shows the no-self-loop hypothesis is needed (phantom neighbour)."
  },
  {
   "property": "C07",
   "status": "proved",
   "theorems": [
    "NC.C07_energy",
    "NC.C07_loop_boundary",
    "NC.C07_loader_meets_hypotheses"
   ],
   "note": "For every tape, acceptance rule and parameter choice, in exact arithmetic."
  },
  {
   "property": "C08",
   "status": "partial",
   "theorems": [
    "NC.C08_result_partial",
    "NC.C08_limit_one_always_null",
    "NC.C08_no_round_null",
    "NC.C08_best_partition_dropped",
    "NC.C08_single_module_never_returns"
   ],
   "note": "The full claim is false: NULL is returned with limit 1 or without rounds, a better partition seen earlier can be lost, and one module makes the call loop forever. C08_result_partial says what a non-NULL result guarantees."
  },
  {
   "property": "C09",
   "status": "proved",
   "theorems": [
    "NC.C09_SplitModuleByComponent",
    "NC.C09_SplitModuleSA",
    "NC.C09_union"
   ],
   "note": "Includes absence of stack overflow and termination of the traversal."
  },
  {
   "property": "C10",
   "status": "partial",
   "theorems": [
    "NC.C10_component_split_partial",
    "NC.C10_counts_components_of_whole_graph"
   ],
   "note": "The claim is false for the induced subgraph (refuted); it holds for components of the whole graph."
  },
  {
   "property": "C100",
   "status": "proved",
   "theorems": [
    "LY.C100_step",
    "LY.C100_run"
   ],
   "note": "Real arithmetic."
  },
  {
   "property": "C101",
   "status": "proved",
   "theorems": [
    "LY.C101_centre"
   ],
   "note": "Real arithmetic."
  },
  {
   "property": "C102",
   "status": "partial",
   "theorems": [
    "LY.C102_refuted",
    "LY.C102_square_partial",
    "LY.C102_one_node"
   ],
   "note": "Refuted: for one node the coordinates are never numbers. Proved whenever the run ends with numbers."
  },
  {
   "property": "C103",
   "status": "partial",
   "theorems": [
    "LY.C103_refuted",
    "LY.C103_connected",
    "LY.C103_rigid_partial",
    "LY.C103_moves_partial"
   ],
   "note": "Refuted: the positions of components not placed yet are read from memory never written. Proved: connected networks are left alone, and components move rigidly whatever the memory holds."
  },
  {
   "property": "C104",
   "status": "partial",
   "theorems": [
    "LY.C104_refuted",
    "LY.C104_first_plane_partial",
    "LY.C104_energy_partial"
   ],
   "note": "Refuted: only boxes of the first plane are visited. Proved: of the adjacent pairs exactly those of the first plane are."
  },
  {
   "property": "C105",
   "status": "partial",
   "theorems": [
    "LS.C105_error_partial"
   ],
   "note": "The scratch array that is never initialised is supposed to hold zeros (see C29). Real arithmetic."
  },
  {
   "property": "C106",
   "status": "partial",
   "theorems": [
    "LS.C106_score_partial",
    "LS.C106_observed",
    "LS.C106_chance"
   ],
   "note": "The scratch array that is never initialised is supposed to hold zeros (see C29). Real arithmetic."
  },
  {
   "property": "C107",
   "status": "partial",
   "theorems": [
    "LS.C107_sampling_partial",
    "LS.C107_thin"
   ],
   "note": "The scratch array that is never initialised is supposed to hold zeros (see C29). C107_thin: a thinning factor that rounds the decorrelation step to 0 gives identical partitions."
  },
  {
   "property": "C108",
   "status": "partial",
   "theorems": [
    "NR.C108_reconstruct_partial",
    "NR.C108_exchange",
    "NR.C108_same_again",
    "NR.C108_undefined",
    "NR.C108_weights_refuted",
    "NR.C108_five"
   ],
   "note": "Undefined for networks without links and for complete networks; weights of links that were removed and restored are lost. NetworkScore and LinkScore are arguments. Exchanges that are undone leave the links as they were. An exchange that is rejected is tried again four times."
  },
  {
   "property": "C109",
   "status": "proved",
   "theorems": [
    "NR.C109_from_scores"
   ],
   "note": "All weights are 0."
  },
  {
   "property": "C11",
   "status": "proved",
   "theorems": [
    "Roles.C11_values",
    "Roles.C11_participation_bounds",
    "Roles.C11_participation_zero",
    "Roles.C11_zscores",
    "Roles.C11_garbage",
    "Roles.C11_zero_strength",
    "Roles.C11_role"
   ],
   "note": "For a caller that passes a zeroed participation array; otherwise the stale value enters the result (proved), and a node with links of total weight 0 gives 0/0 (proved)."
  },
  {
   "property": "C110",
   "status": "proved",
   "theorems": [
    "TS.C110_insert",
    "TS.C110_find",
    "TS.C110_height",
    "TS.C110_all"
   ],
   "note": "A location is modelled as a subtree with the path to it; reading a location made invalid by a rotation would be undefined and is proved not to happen. malloc does not fail."
  },
  {
   "property": "C111",
   "status": "proved",
   "theorems": [
    "TS.C111_delete"
   ],
   "note": "The code gives up or overruns its stack only for trees higher than any with fewer than 2^49 keys."
  },
  {
   "property": "C112",
   "status": "proved",
   "theorems": [
    "TS.C112_walk_order",
    "TS.C112_walk_count",
    "TS.C112_destroy"
   ],
   "note": ""
  },
  {
   "property": "C113",
   "status": "proved",
   "theorems": [
    "TS.C113_dict",
    "TS.C113_distinct",
    "TS.C113_reader"
   ],
   "note": "The search tree is that of lib/search.c. Labels fit their buffers. Justifies the dictionary lookups of the models of src/graph.c."
  },
  {
   "property": "C114",
   "status": "partial",
   "theorems": [
    "RC.C114_step_partial",
    "RC.C114_heat_bath",
    "RC.C114_every_node",
    "RC.C114_zero"
   ],
   "note": "Proved for all streams of random numbers without 0. gsl_rng_uniform may return 0, then slg[-1] is read: RC.C114_zero. exp and sums are exact."
  },
  {
   "property": "C115",
   "status": "partial",
   "theorems": [
    "RC.C115_means_partial",
    "RC.C115_distribution_partial",
    "RC.C115_no_leak",
    "RC.C115_zero"
   ],
   "note": "Proved for all streams without 0; with a 0 the call is undefined (RC.C115_zero). The number of calls of the step in the thermalisation is left open. Rounding is not modelled."
  },
  {
   "property": "C116",
   "status": "proved",
   "theorems": [
    "RC.C116_scores",
    "RC.C116_lines"
   ],
   "note": "Thermalisation is any sequence of steps. Overflow of n1*n2 and rounding are not modelled."
  },
  {
   "property": "C117",
   "status": "proved",
   "theorems": [
    "GR.C117_round_trip",
    "GR.C117_same",
    "GR.C117_degrees",
    "GR.C117_isolated_lost",
    "GR.C117_last_line"
   ],
   "note": "%g and strtod are parameters: what reading a printed number gives is named val. Isolated nodes cannot be written (GR.C117_isolated_lost)."
  },
  {
   "property": "C118",
   "status": "proved",
   "theorems": [
    "BP.C118_round_trip",
    "BP.C118_isolated_lost"
   ],
   "note": "As C117; nodes without links are lost."
  },
  {
   "property": "C119",
   "status": "proved",
   "theorems": [
    "GR.C119_pajek",
    "GR.C119_each_once",
    "GR.C119_bipartite",
    "GR.C119_partition"
   ],
   "note": "Lines are records; coordinates are left out; quotes in labels are not modelled."
  },
  {
   "property": "C12",
   "status": "partial",
   "theorems": [
    "NC.C12_projection_partial",
    "NC.C12_last_pair_lost",
    "NC.C12_strength_not_set"
   ],
   "note": "Refuted in general: the code tests the cell after the last projected edge and starts a sum with an uninitialised variable; witnesses for both. Proved for all lists of different edges when the stray cell differs from every projected pair and the variable happens to be 0: rows, weights, symmetry, norm and node strengths."
  },
  {
   "property": "C120",
   "status": "proved",
   "theorems": [
    "GP.C120_same",
    "GP.C120_map",
    "GP.C120_history",
    "GP.C120_map_fast"
   ],
   "note": "Nodes are numbers; memory handling of list cells is not modelled."
  },
  {
   "property": "C121",
   "status": "partial",
   "theorems": [
    "GP.C121_matrix_partial",
    "GP.C121_fractions",
    "GP.C121_diagonal",
    "GP.C121_probability_halved",
    "GP.C121_excess_wrong",
    "GP.C121_overflow"
   ],
   "note": "Proved: which lines are printed, exact values for every type, types n, f and z right, diagonal of type e adds up to the modularity. Refuted: type p prints half of the probability on the diagonal, type e takes away only half of the expected fraction off the diagonal, 4*links*links overflows beyond 23170 links."
  },
  {
   "property": "C122",
   "status": "partial",
   "theorems": [
    "GP.C122_only_nothing_partial",
    "GP.C122_use_after_free"
   ],
   "note": "Refuted: nei->next is read after RemoveLink has freed nei, so the functions are defined exactly when there is nothing to remove."
  },
  {
   "property": "C123",
   "status": "proved",
   "theorems": [
    "GP.C123_sizes"
   ],
   "note": "Real arithmetic is exact."
  },
  {
   "property": "C124",
   "status": "partial",
   "theorems": [
    "GP.C124_soft_map_partial",
    "GP.C124_counters_lost",
    "GP.C124_subset_crashes"
   ],
   "note": "Proved: groups of the nodes when all labels of the partition are in the network. Refuted: counters of groups are set to 0, and a label missing from the network is a NULL dereference."
  },
  {
   "property": "C125",
   "status": "proved",
   "theorems": [
    "GP.C125_equal_groups"
   ],
   "note": ""
  },
  {
   "property": "C126",
   "status": "proved",
   "theorems": [
    "GR.C126_removed",
    "GR.C126_dangling"
   ],
   "note": "Without the hypothesis on links a node with incoming links only is freed while still referred to (GR.C126_dangling)."
  },
  {
   "property": "C127",
   "status": "proved",
   "theorems": [
    "BFS.C127_histogram",
    "BFS.C127_from_node"
   ],
   "note": "Exact arithmetic. Pairs without a path are counted in the denominator of the average (documented by the normalization line)."
  },
  {
   "property": "C128",
   "status": "partial",
   "theorems": [
    "BT.C128_largest_partial",
    "BT.C128_unique_paths",
    "BT.C128_wrong_link"
   ],
   "note": "Proved: the stored link maximises the values that the function computes, and the betweenness when shortest paths are unique. Refuted in general: with several shortest paths another link can have a larger betweenness."
  },
  {
   "property": "C129",
   "status": "proved",
   "theorems": [
    "BT.C129_statistics"
   ],
   "note": "Real arithmetic is exact."
  },
  {
   "property": "C13",
   "status": "proved",
   "theorems": [
    "FIO.C13_read",
    "FIO.C13_error",
    "FIO.C13_mode",
    "FIO.C13_same",
    "FIO.C13_long_label"
   ],
   "note": "Files are given as lines divided into fields (getline/sscanf); labels of 100 bytes or more overflow a buffer (finding)."
  },
  {
   "property": "C130",
   "status": "proved",
   "theorems": [
    "RC.C130_queries",
    "RC.C130_blank_lines"
   ],
   "note": "Dictionaries of labels as in C113. A file of blank lines only makes the code use uninitialised buffers."
  },
  {
   "property": "C131",
   "status": "partial",
   "theorems": [
    "RC.C131_two",
    "RC.C131_many",
    "RC.C131_seed_missing",
    "RC.C131_arguments"
   ],
   "note": "Proved: everything printed for well formed files. Refuted: with the seed missing the programs do not print their usage but pass NULL to atoi."
  },
  {
   "property": "C132",
   "status": "partial",
   "theorems": [
    "WU.C132_ends",
    "WU.C132_meaning",
    "WU.C132_missing_ends",
    "WU.C132_strict_never_ends",
    "WU.C132_recommender_hangs"
   ],
   "note": "Proved: termination of the test with EPSILON for every sampler whose energy is bounded below, in particular ThermalizeLinkScoreMC on simple networks (if the scratch array starts at 0), and the meaning of the result for both tests. Refuted: the test without EPSILON (recommend.c, LSThermalizeMCKState) never passes at constant energy, e.g. for decorrelation step 0. Real arithmetic is exact."
  },
  {
   "property": "C133",
   "status": "partial",
   "theorems": [
    "WU.C133_decay",
    "WU.C133_fit_unique",
    "WU.C133_times",
    "WU.C133_chauvenet",
    "WU.C133_step",
    "WU.C133_small_networks",
    "WU.C133_slower"
   ],
   "note": "Proved: the decay time is that of a curve through the points (to 1e-7) found by the solver, or -1, and unique; outliers; the result. Refuted: with fewer than 20 nodes missing.c, multiblock.c and only_deg.c look at the first time as time 0, so that only runs whose similarity stays 1 give an estimate. The GSL solver is a parameter."
  },
  {
   "property": "C134",
   "status": "proved",
   "theorems": [
    "WU.C134_link_score",
    "WU.C134_gibbs",
    "WU.C134_multiblock",
    "WU.C134_k_state",
    "WU.C134_recommend_two",
    "WU.C134_recommend_many",
    "WU.C134_scores",
    "WU.C134_k_distribution",
    "WU.C134_two_scores",
    "WU.C134_distribution",
    "PG.C134_network_score",
    "PG.C134_gibbs_recommend",
    "PG.C134_conflict"
   ],
   "note": "Runs that do not return are excluded (C132). The times found by the solver are at most 1e9, as larger ones overflow the int. C134_scores needs the scratch array to start at 0, as C31."
  },
  {
   "property": "C135",
   "status": "proved",
   "theorems": [
    "HP.C135_get_node",
    "HP.C135_remove",
    "HP.C135_networks"
   ],
   "note": "Heap of typed blocks at addresses never used twice, so that every use after free shows. The network without pointers is the model of Verif/Graph, whose use of indices for pointers is justified here for these functions. Fuel must exceed the number of commands and the node numbers. calloc does not fail."
  },
  {
   "property": "C136",
   "status": "proved",
   "theorems": [
    "HP.C136_copy",
    "HP.C136_deep_copy",
    "HP.C136_disjoint",
    "HP.C136_source",
    "HP.C136_changes_of_copy",
    "HP.C136_changes_of_source",
    "HP.C136_remove_copy",
    "HP.C136_remove_source"
   ],
   "note": "Heap model of C135. The blocks of the temporary dictionary of labels are not modelled (for distinct labels all are freed; a repeated label loses one, see C113)."
  },
  {
   "property": "C137",
   "status": "partial",
   "theorems": [
    "NCP.C137_output_partial",
    "NCP.C137_bipartite_partial",
    "NCP.C137_malformed",
    "NCP.C137_invert_alone",
    "NCP.C137_invert_crash",
    "NCP.C137_crash"
   ],
   "note": "What is printed is right for every simple network and all random numbers. Refuted: a malformed line crashes the program (C137_malformed); -t without -b reads a wrong network (C137_invert_alone, C137_invert_crash); with default options and a file with one link the annealing may leave NULL and the program crashes (C137_crash), which is the only way to crash on a well-formed file of a simple network. The theorem for -b needs that memory read without having been written holds harmless values (C12)."
  },
  {
   "property": "C138",
   "status": "partial",
   "theorems": [
    "NCP.C138_file_partial",
    "NCP.C138_bipartite_partial",
    "NCP.C138_own_output"
   ],
   "note": "Proved for clean files. Refuted for the program's own output: it cannot be read back (C138_own_output)."
  },
  {
   "property": "C139",
   "status": "partial",
   "theorems": [
    "NCP.C139_roles_partial",
    "NCP.C139_bipartite_partial",
    "NCP.C139_prints"
   ],
   "note": "For labels whose weights do not add up to 0 (otherwise the participation is NaN, see C11); the program may crash before printing (C137)."
  },
  {
   "property": "C14",
   "status": "partial",
   "theorems": [
    "FIO.C14_round_trip_fails",
    "FIO.C14_read_partial"
   ],
   "note": "Refuted: no file written by ClusteringOutput can be read back by AssignNodesToModulesFromFile (overflow of sep, or an endless loop if the first module is empty). Partial: files without a tab at the end of the line are read correctly."
  },
  {
   "property": "C140",
   "status": "proved",
   "theorems": [
    "BFS.C140_largest",
    "BFS.C140_empty",
    "GR.C140_network"
   ],
   "note": "For undirected networks; on directed networks the property fails (C22). For a network without nodes the function dereferences NULL (C140_empty)."
  },
  {
   "property": "C141",
   "status": "proved",
   "theorems": [
    "GR.C141_spectrum"
   ],
   "note": "gsl_eigen_symm is taken to give exact eigenvalues of the symmetric matrix held in the lower triangle."
  },
  {
   "property": "C142",
   "status": "proved",
   "theorems": [
    "GR.C142_synchronizability",
    "GR.C142_no_links"
   ],
   "note": "Eigenvalues exact as in C141. For a network without links the loop reads past the end of the vector (C142_no_links), so at least one link is assumed."
  },
  {
   "property": "C143",
   "status": "proved",
   "theorems": [
    "UT.C143_countlinks",
    "UT.C143_crash"
   ],
   "note": "Numbers are left as such; the conversion to decimal text is not modelled."
  },
  {
   "property": "C144",
   "status": "proved",
   "theorems": [
    "UT.C144_netcompare",
    "UT.C144_crash"
   ],
   "note": "Numbers are left as such."
  },
  {
   "property": "C145",
   "status": "proved",
   "theorems": [
    "UT.C145_nodeprop"
   ],
   "note": "For files in which no two labels are joined by more than INT_MAX shortest paths (the counters are int)."
  },
  {
   "property": "C146",
   "status": "proved",
   "theorems": [
    "UT.C146_getgiant",
    "UT.C146_empty"
   ],
   "note": "For an empty file the program dereferences NULL (C146_empty)."
  },
  {
   "property": "C147",
   "status": "proved",
   "theorems": [
    "UT.C147_netrandomize",
    "UT.C147_crash",
    "UT.C147_never_ends"
   ],
   "note": "For a file with a link. Termination is probabilistic and not claimed: the runs that end are considered, none is undefined. Without the seed, or for a file without links, the program is undefined (C147_crash). If no two links can be switched the program never ends (C147_never_ends)."
  },
  {
   "property": "C148",
   "status": "proved",
   "theorems": [
    "UT.C148_lapspec"
   ],
   "note": "gsl_eigen_symm is taken to give exact eigenvalues as in C141."
  },
  {
   "property": "C149",
   "status": "partial",
   "theorems": [
    "UT.C149_netprop_partial",
    "UT.C149_ratio",
    "UT.C149_crash"
   ],
   "note": "Proved for all numbers but the last, for files of at most 10000 labels and 1000 components, whose shortest path counts and cubed degrees fit in int. K_K2 is wrong: the mean squared degree is rounded down (C149_ratio, 3/4 instead of 3/5 for a path of four labels). More than 1000 components or 10001 labels, no links, or a bad file: undefined (C149_crash)."
  },
  {
   "property": "C15",
   "status": "proved",
   "theorems": [
    "GR.C15_history",
    "GR.C15_removing_absent_is_undefined",
    "GR.C15_no_self_links",
    "GR.C15_soft_insertion_stale"
   ],
   "note": "For AddAdjacency/RemoveLink histories; AddAdjacencySoft breaks the caches (refuted) and removing an absent link is undefined."
  },
  {
   "property": "C150",
   "status": "partial",
   "theorems": [
    "PG.C150_reliability_links_partial",
    "PG.C150_gibbs",
    "PG.C150_crash",
    "PG.C150_never_ends"
   ],
   "note": "Proved for reliability_links when the scratch memory is 0 and the solver of the waiting time is moderate, and for whatever reliability_links_gibbs prints. The seed is not asked for (atoi(NULL)), and files are not checked: crashes proved. The meaning of %g is not modelled. With one label reliability_links never ends (proved)."
  },
  {
   "property": "C151",
   "status": "partial",
   "theorems": [
    "PG.C151_sparse",
    "PG.C151_undefined"
   ],
   "note": "Whatever is printed is right; undefined without links and with all pairs linked. Missing: other runs can be undefined too (C70: a draw of 0, a single group)."
  },
  {
   "property": "C152",
   "status": "partial",
   "theorems": [
    "PG.C152_multiblock",
    "PG.C152_multiblock_gibbs",
    "PG.C152_long_name",
    "PG.C152_no_file"
   ],
   "note": "Whatever is written is right. Refuted that a file is always written: names of 200 bytes with the suffix overflow the buffer, one or two labels or zeros drawn at the start read outside the table of harmonic numbers."
  },
  {
   "property": "C153",
   "status": "proved",
   "theorems": [
    "PG.C153_only_degeneration",
    "PG.C153_gibbs",
    "PG.C153_same"
   ],
   "note": "only_degeneration_mb: never undefined, for a moderate solver of the waiting time; the Gibbs version: whatever it writes."
  },
  {
   "property": "C154",
   "status": "partial",
   "theorems": [
    "PG.C154_groups",
    "PG.C154_mutualinfo",
    "PG.C154_undivided",
    "PG.C154_crash"
   ],
   "note": "The number is proved. Nothing is reported: missing arguments, files or words are undefined behaviour, an open last group makes the program run for ever, all labels in one group in both files give 0/0 (all proved). %f is not modelled."
  },
  {
   "property": "C155",
   "status": "partial",
   "theorems": [
    "PG.C155_bipartitemodularity",
    "PG.C155_no_pairs",
    "PG.C155_crash"
   ],
   "note": "The number is proved if some team has two members; else, with a group of two, it is not a number. Nothing is reported: a label that is no node, missing arguments or files, a malformed line are undefined behaviour (proved)."
  },
  {
   "property": "C156",
   "status": "proved",
   "theorems": [
    "PG.C156_weighted",
    "PG.C156_unit_weights"
   ],
   "note": "That W(W-1) is not the number of pairs when weights are not one is the finding of C63. `strtod` is an argument."
  },
  {
   "property": "C157",
   "status": "partial",
   "theorems": [
    "PG.C157_reliability_links_k_partial",
    "PG.C157_crash",
    "PG.C157_no_ratings",
    "PG.C157_never_ends"
   ],
   "note": "Proved for a moderate solver of the waiting time; that the run ends is refuted: with one label it never does. Missing seed, missing file, malformed line and K < 1 are not reported but undefined behaviour (proved). %lf is not modelled."
  },
  {
   "property": "C158",
   "status": "partial",
   "theorems": [
    "PG.C158_reliability_reconstruct_partial",
    "PG.C158_complete",
    "PG.C158_crash"
   ],
   "note": "Proved when some pair of labels is linked and some is not, the scratch memory is 0 (C31) and the solver of the waiting time is moderate (C132). A network without links or with all links never yields a result (proved); a missing file or malformed line is undefined behaviour (proved)."
  },
  {
   "property": "C159",
   "status": "partial",
   "theorems": [
    "PG.C159_multi_recommend_2_partial",
    "PG.C159_multi_recommend_k_partial",
    "PG.C159_gibbs_partial",
    "PG.C159_crash",
    "PG.C159_never_ends_2",
    "PG.C159_never_ends_k",
    "PG.C159_never_ends_gibbs"
   ],
   "note": "Proved for a moderate solver of the waiting time and, for the heat bath, a sequence without 0; that the run ends is refuted: with one person and one thing it never does. A missing seed, a missing file, a malformed line and K < 1 are not reported but undefined behaviour (proved). %lf is not modelled."
  },
  {
   "property": "C16",
   "status": "proved",
   "theorems": [
    "GR.C16_build",
    "GR.C16_symmetric",
    "GR.C16_malformed",
    "GR.C16_long_label_overflows"
   ],
   "note": "Labels shorter than 100 bytes; longer ones overflow the buffer (proved)."
  },
  {
   "property": "C160",
   "status": "partial",
   "theorems": [
    "PG.C160_conflict_partial",
    "PG.C160_crash",
    "PG.C160_never_ends"
   ],
   "note": "Proved for a moderate solver and at most 2147483647 pairs; that the run ends is refuted: with one person and one thing it never does. More pairs, a missing file or a malformed line are undefined behaviour (proved)."
  },
  {
   "property": "C161",
   "status": "proved",
   "theorems": [
    "LY.C161_forces_3d",
    "LY.C161_balance",
    "LY.C161_cutoff"
   ],
   "note": "Coordinates are real numbers; a division by zero is a NaN, modelled as no result."
  },
  {
   "property": "C162",
   "status": "partial",
   "theorems": [
    "LY.C162_step",
    "LY.C162_run",
    "LY.C162_cube_partial",
    "LY.C162_one_node",
    "LY.C162_refuted"
   ],
   "note": "Steps, filing and centre are proved. The cube: proved if no NaN appears; refuted in general, since a network of one node divides 0 by 0. The six sides are touched if the coordinates stay within 10^100 in absolute value."
  },
  {
   "property": "C163",
   "status": "partial",
   "theorems": [
    "LY.C163_pull",
    "LY.C163_run",
    "LY.C163_centre_z",
    "LY.C163_square_partial",
    "LY.C163_one_node",
    "LY.C163_refuted"
   ],
   "note": "Steps, strength of the spring and centre are proved. The square: proved if no NaN appears; refuted in general, since a network of one node divides 0 by 0."
  },
  {
   "property": "C17",
   "status": "proved",
   "theorems": [
    "GR.C17_degrees_preserved",
    "GR.C17_no_links_undefined",
    "GR.C17_never_ends",
    "GR.C17_strength_not_preserved"
   ],
   "note": "Degrees; strengths are not preserved (refuted), a network without links is undefined behaviour, and the function never ends if no two links can be switched."
  },
  {
   "property": "C18",
   "status": "proved",
   "theorems": [
    "BFS.C18_layers",
    "BFS.C18_connected",
    "BFS.C18_connected_is_one_way"
   ],
   "note": "Any directed network; the empty network is a NULL dereference."
  },
  {
   "property": "C19",
   "status": "partial",
   "theorems": [
    "GR.C19_only_own_buffers",
    "GR.C19_is_there_node_partial"
   ],
   "note": "The stated property is false: IsThereNode compares addresses."
  },
  {
   "property": "C20",
   "status": "partial",
   "theorems": [
    "GR.C20_truncated",
    "GR.C20_average_squared_degree_partial"
   ],
   "note": "The stated property is false: the result is the floor of the mean."
  },
  {
   "property": "C21",
   "status": "proved",
   "theorems": [
    "BFS.C21_one_node",
    "BFS.C21_network",
    "BFS.C21_jaccard",
    "BFS.C21_overlap"
   ],
   "note": "With the cases where the answer is 0/0 identified."
  },
  {
   "property": "C22",
   "status": "partial",
   "theorems": [
    "BFS.C22_not_a_component",
    "BFS.C22_largest_set_partial"
   ],
   "note": "Refuted for directed networks; closed under outgoing links always, a closed set when links have no direction."
  },
  {
   "property": "C23",
   "status": "partial",
   "theorems": [
    "GP.C23_history_partial",
    "GP.C23_map_recounts",
    "GP.C23_one_removal",
    "GP.C23_remove_breaks",
    "GP.C23_merge_with_itself"
   ],
   "note": "RemoveNodeFromGroup as a separate step breaks the counters (refuted); proved for additions, moves and merges of different groups."
  },
  {
   "property": "C24",
   "status": "proved",
   "theorems": [
    "GP.C24_modularity",
    "GP.C24_modularity_weighted",
    "GP.C24_move",
    "GP.C24_merge"
   ],
   "note": ""
  },
  {
   "property": "C25",
   "status": "proved",
   "theorems": [
    "FIO.C25_round_trip",
    "FIO.C25_empty",
    "FIO.C25_unclosed"
   ],
   "note": "Partitions are lists of groups of labels. A partition without nodes and a file whose last group is not closed are findings."
  },
  {
   "property": "C26",
   "status": "proved",
   "theorems": [
    "CP.C26_mutualInformation",
    "CP.C26_self",
    "CP.C26_undivided",
    "CP.C26_overflow"
   ],
   "note": "Logarithms in the reals. 0/0 if neither partition is divided (C26_undivided); signed overflow from 46341 nodes on (C26_overflow)."
  },
  {
   "property": "C27",
   "status": "partial",
   "theorems": [
    "CP.C27_refuted",
    "CP.C27_self_partial",
    "CP.C27_at_most_half",
    "CP.C27_label_out_of_bounds"
   ],
   "note": "The stated property is false: the nodes are counted twice in the denominator, so a partition against itself gives 1/2 (proved for every partition with distinct labels below the number of nodes)."
  },
  {
   "property": "C28",
   "status": "proved",
   "theorems": [
    "BFS.C28_components",
    "BFS.C28_directed_repeats_nodes",
    "BFS.C28_empty_network"
   ],
   "note": ""
  },
  {
   "property": "C29",
   "status": "partial",
   "theorems": [
    "LS.C29_step_partial",
    "LS.C29_energy",
    "LS.C29_scratch",
    "LS.C29_one_node",
    "LS.C29_uninitialised"
   ],
   "note": "Proved when the scratch array is 0 at empty groups; LinkScore passes memory from malloc, and with other contents the counts are wrong (C29_scratch) and the sampler leaves its tables (C29_uninitialised). With one node it never returns (C29_one_node)."
  },
  {
   "property": "C30",
   "status": "proved",
   "theorems": [
    "KS.C30_step",
    "KS.C30_reject_restores",
    "KS.C30_energy",
    "KS.C30_one_node"
   ],
   "note": "All networks rated 0..K-1, states, acceptance rules, random streams. C30_one_node: with one node the call never returns. Lists of group members may be in another order after a rejected move."
  },
  {
   "property": "C31",
   "status": "partial",
   "theorems": [
    "LS.C31_scores_partial",
    "LS.C31_gibbs_scores"
   ],
   "note": "Whole run of LinkScore for every random stream, acceptance rule and warm-up, provided the scratch array (memory from malloc) holds zeros; see C29_uninitialised for what happens otherwise. C31_gibbs_scores: the same for GibbsLinkScore on every run that ends without undefined behaviour, with arbitrary initial scratch memory."
  },
  {
   "property": "C32",
   "status": "proved",
   "theorems": [
    "KS.C32_distribution",
    "KS.C32_queries",
    "KS.C32_average"
   ],
   "note": "Whole run of LSMultiLinkScoreKState for any warm-up, acceptance rule, number of restarts; rounding to float is not modelled."
  },
  {
   "property": "C33",
   "status": "partial",
   "theorems": [
    "LS.C33_step_partial",
    "LS.C33_one_group",
    "LS.C33_zero_draw",
    "LS.C33_reachable"
   ],
   "note": "The property is false: a call with one used group, or with a draw of exactly 0, is undefined, and on every network with two nodes or more some draws in (0,1) lead to it. Partial: with two used groups throughout and draws above 0 the step is defined and keeps counts and energy exact."
  },
  {
   "property": "C34",
   "status": "proved",
   "theorems": [
    "RC.C34_step",
    "RC.C34_reject_restores",
    "RC.C34_energy",
    "RC.C34_sides",
    "RC.C34_one_one"
   ],
   "note": "Ratings 0 and 1, both sets non-empty, every acceptance rule and random stream. With one node in each set the step never returns."
  },
  {
   "property": "C35",
   "status": "proved",
   "theorems": [
    "BP.C35_unobserved"
   ],
   "note": ""
  },
  {
   "property": "C36",
   "status": "proved",
   "theorems": [
    "BP.C36_degrees",
    "BP.C36_never_returns",
    "BP.C36_weights_lost"
   ],
   "note": "Holds for every run that returns; the loop does not return when no switch exists. Weights of switched links become 0."
  },
  {
   "property": "C37",
   "status": "partial",
   "theorems": [
    "BP.C37_project",
    "BP.C37_weighted_truncated",
    "BP.C37_weighted_refuted",
    "BP.C37_weighted_partial"
   ],
   "note": "ProjectBipart proved. The weighted version cuts the sum to an integer: refuted in general, proved for non-negative integer weights."
  },
  {
   "property": "C38",
   "status": "proved",
   "theorems": [
    "DS.C38_stack",
    "DS.C38_queue",
    "DS.C38_stack_clear",
    "DS.C38_queue_clear",
    "DS.C38_put_succeeds"
   ],
   "note": ""
  },
  {
   "property": "C39",
   "status": "proved",
   "theorems": [
    "Tools.C39_choose",
    "Tools.C39_choose_negative",
    "Tools.C39_memo_transparent",
    "Tools.C39_log_of_choose",
    "Tools.C39_memo_out_of_domain",
    "Tools.C39_fast_log",
    "Tools.C39_harmonic"
   ],
   "note": "For 0 <= k <= n; outside, Choose(n,k<0) = 1 and FastLogChoose reads out of bounds (both proved)."
  },
  {
   "property": "C40",
   "status": "proved",
   "theorems": [
    "GR.C40_laplacian",
    "GR.C40_self_link_null"
   ],
   "note": ""
  },
  {
   "property": "C41",
   "status": "proved",
   "theorems": [
    "Tools.C41_mean",
    "Tools.C41_stddev",
    "Tools.C41_max_min"
   ],
   "note": "Exact real arithmetic."
  },
  {
   "property": "C42",
   "status": "proved",
   "theorems": [
    "Tools.C42_fact",
    "Tools.C42_overflow"
   ],
   "note": ""
  },
  {
   "property": "C43",
   "status": "partial",
   "theorems": [
    "Tools.C43_count_lines_partial",
    "Tools.C43_long_line_counted_twice"
   ],
   "note": "False for lines of 999 or more characters (refuted); proved for shorter lines."
  },
  {
   "property": "C44",
   "status": "proved",
   "theorems": [
    "GR.C44_copy",
    "GR.C44_copy_of_file",
    "GR.C44_equal_labels_break"
   ],
   "note": "For distinct labels; equal labels break the copy (proved)."
  },
  {
   "property": "C45",
   "status": "proved",
   "theorems": [
    "GR.C45_total_links",
    "GR.C45_average_degree",
    "GR.C45_self_link_lost"
   ],
   "note": "For networks without self links; a self link is lost in symmetric mode (proved)."
  },
  {
   "property": "C46",
   "status": "proved",
   "theorems": [
    "BFS.C46_average_path_length",
    "BFS.C46_not_connected",
    "BFS.C46_average_inverse_distance",
    "BFS.C46_long_path_overflows"
   ],
   "note": "From 10000 on distances overflow the histogram (proved)."
  },
  {
   "property": "C47",
   "status": "proved",
   "theorems": [
    "GP.C47_split",
    "GP.C47_zero_draw",
    "GP.C47_energy_is_not_modularity"
   ],
   "note": "For streams without the value 0; with 0 a NULL dereference is reachable (proved)."
  },
  {
   "property": "C48",
   "status": "proved",
   "theorems": [
    "GP.C48_run",
    "GP.C48_to_zero",
    "GP.C48_cold_start",
    "GP.C48_one_group",
    "GP.C48_worse_than_best",
    "GP.C48_patience",
    "GP.C48_split_rule"
   ],
   "note": "Whole run, with the cases Ti <= Tf (crash) and one group (no return) identified."
  },
  {
   "property": "C49",
   "status": "proved",
   "theorems": [
    "RC.C49_step",
    "RC.C49_reject_restores",
    "RC.C49_energy"
   ],
   "note": ""
  },
  {
   "property": "C50",
   "status": "proved",
   "theorems": [
    "RC.C50_means",
    "RC.C50_distribution",
    "RC.C50_score2",
    "RC.C50_no_leak",
    "RC.C50_no_leak2"
   ],
   "note": "Warm-up left open (any list of steps); number of loop turns bounded by fuel because restarts can repeat."
  },
  {
   "property": "C51",
   "status": "proved",
   "theorems": [
    "BP.C51_copy"
   ],
   "note": ""
  },
  {
   "property": "C52",
   "status": "proved",
   "theorems": [
    "BP.C52_removeRatings"
   ],
   "note": ""
  },
  {
   "property": "C53",
   "status": "proved",
   "theorems": [
    "FIO.C53_read",
    "FIO.C53_defects"
   ],
   "note": "The additional empty group and the failures on other files are findings."
  },
  {
   "property": "C54",
   "status": "proved",
   "theorems": [
    "BT.C54_betweenness",
    "BT.C54_overflow"
   ],
   "note": "sigma is an int: overflow is undefined in the model, excluded by a hypothesis on the number of shortest paths, and a network of 66 nodes that overflows is exhibited."
  },
  {
   "property": "C55",
   "status": "partial",
   "theorems": [
    "BT.C55_conservation",
    "BT.C55_unique_paths_partial",
    "BT.C55_not_betweenness",
    "BT.C55_directed_crash"
   ],
   "note": "Equality with link betweenness is refuted (six nodes, 11/2 instead of 16/3) and proved when shortest paths are unique; symmetry and the conservation law are proved for all symmetric networks."
  },
  {
   "property": "C56",
   "status": "proved",
   "theorems": [
    "GP.C24_modularity",
    "GP.C24_modularity_weighted"
   ],
   "note": ""
  },
  {
   "property": "C57",
   "status": "proved",
   "theorems": [
    "MD.C57_empty",
    "MD.C57_er",
    "MD.C57_simple",
    "MD.C57_own_number",
    "MD.C57_er_extremes",
    "MD.C57_blocks"
   ],
   "note": "All links have weight 0 (AddAdjacency is called with weight 0), part of the statement."
  },
  {
   "property": "C58",
   "status": "proved",
   "theorems": [
    "MD.C58_girvan_newman",
    "MD.C58_expected_degrees"
   ],
   "note": ""
  },
  {
   "property": "C59",
   "status": "partial",
   "theorems": [
    "MD.C59_pa_partial",
    "MD.C59_tree",
    "MD.C59_missing_links",
    "MD.C59_too_few"
   ],
   "note": "Exactly m links is refuted for m = 2 (a new node can choose itself once it is in the list) and S < m overflows the array of nodes. Proved for 1 <= m <= S: memory safety, simple network, complete core, between 1 and m links, exactly m less the self choices, and exactly one for m = 1."
  },
  {
   "property": "C60",
   "status": "proved",
   "theorems": [
    "BP.C60_formula",
    "BP.C60_bounds",
    "BP.C60_one_group",
    "BP.C60_singletons",
    "BP.C60_overflow"
   ],
   "note": "BP.C60_overflow shows that the bound on the degrees is needed."
  },
  {
   "property": "C61",
   "status": "proved",
   "theorems": [
    "GP.C61_participation",
    "GP.C61_bounds",
    "GP.C61_weighted",
    "GP.C61_within",
    "GP.C61_scores",
    "GP.C61_overflow"
   ],
   "note": "GP.C61_overflow and the third part of GP.C61_weighted (0/0 for a node of strength 0) show that the hypotheses are needed."
  },
  {
   "property": "C62",
   "status": "proved",
   "theorems": [
    "GP.C62_catalog",
    "GP.C62_catalog_strength"
   ],
   "note": ""
  },
  {
   "property": "C63",
   "status": "partial",
   "theorems": [
    "BP.C63_weighted_partial",
    "BP.C63_unit_weights",
    "BP.C63_not_normalised",
    "BP.C63_fast",
    "BP.C63_fast_agrees"
   ],
   "note": "The value computed is given exactly, and equals C60 for unit weights. The bound by 1 is refuted: the denominator is W^2 - W, which normalises only weights 0 and 1."
  },
  {
   "property": "C64",
   "status": "proved",
   "theorems": [
    "BK.C64_and_metropolis",
    "BK.C64_and_gibbs",
    "BK.C64_or_metropolis",
    "BK.C64_or_gibbs"
   ],
   "note": "Stated for runs that return; C65 says which do not."
  },
  {
   "property": "C65",
   "status": "partial",
   "theorems": [
    "BK.C65_long_table_partial",
    "BK.C65_energy",
    "BK.C65_undefined",
    "BK.C65_small",
    "BK.C65_join",
    "BK.C65_gibbs_stuck"
   ],
   "note": "Refuted: the table is two entries short. With two more entries the Metropolis versions are never undefined; with the table of the code the energy is defined exactly for three nodes or more in two groups or more. The Gibbs versions use unset variables when one group is left or a draw is 0."
  },
  {
   "property": "C66",
   "status": "proved",
   "theorems": [
    "BK.C66_cost",
    "BK.C66_predict",
    "BK.C66_values"
   ],
   "note": ""
  },
  {
   "property": "C67",
   "status": "proved",
   "theorems": [
    "BK.C67_log_degeneracy"
   ],
   "note": ""
  },
  {
   "property": "C68",
   "status": "partial",
   "theorems": [
    "BK.C68_metropolis",
    "BK.C68_gibbs_partial",
    "BK.C68_energy_wrong"
   ],
   "note": "LinkScoreMB_OD: proved, never undefined. GibbsLinkScoreMB_OD: scores proved for runs that return; the energy is refuted for every network with two nodes or more, because the initial value is that of the AND model."
  },
  {
   "property": "C69",
   "status": "proved",
   "theorems": [
    "BK.C69_prior",
    "BK.C69_energy",
    "BK.C69_scores",
    "BK.C69_predict"
   ],
   "note": "Stated for runs that return; C70 says which do not."
  },
  {
   "property": "C70",
   "status": "partial",
   "theorems": [
    "BK.C70_step_partial",
    "BK.C70_undefined",
    "BK.C70_stuck"
   ],
   "note": "Refuted: undefined for networks without links and for complete networks, when one group is left, and when a draw is 0. Proved: a call of the sampler from two groups or more, with draws other than 0, is defined."
  },
  {
   "property": "C71",
   "status": "proved",
   "theorems": [
    "GR.C71_union",
    "GR.C71_symmetric",
    "GR.C71_order"
   ],
   "note": ""
  },
  {
   "property": "C72",
   "status": "partial",
   "theorems": [
    "GR.C72_refuted",
    "GR.C72_weights_partial"
   ],
   "note": "Refuted: links that only the second network has get weight 1. Proved: links of the first network keep their weight; right when the second network is unweighted."
  },
  {
   "property": "C73",
   "status": "proved",
   "theorems": [
    "GR.C73_compare",
    "GR.C73_frequencies",
    "GR.C73_directed_lost"
   ],
   "note": "Stated for undirected networks without self links; C73_directed_lost shows that counts of directed networks are halved too."
  },
  {
   "property": "C74",
   "status": "proved",
   "theorems": [
    "GR.C74_removed",
    "GR.C74_number",
    "GR.C74_too_many",
    "GR.C74_every_set",
    "GR.C74_self_link_undefined"
   ],
   "note": "C74_self_link_undefined: with a self link in an undirected network the function reads out of bounds, so the exclusion is needed."
  },
  {
   "property": "C75",
   "status": "partial",
   "theorems": [
    "GR.C75_refuted",
    "GR.C75_added_partial",
    "GR.C75_complete"
   ],
   "note": "Refuted for directed networks: symmetric_sw is ignored and both directions are added. Proved for undirected networks; C75_complete: never returns on a complete network."
  },
  {
   "property": "C76",
   "status": "proved",
   "theorems": [
    "BFS.C76_pearson",
    "BFS.C76_overflow",
    "BFS.C76_hub"
   ],
   "note": "Divisions are exact; degree caches are assumed right (C44)."
  },
  {
   "property": "C77",
   "status": "proved",
   "theorems": [
    "BFS.C77_knn",
    "BFS.C77_identity",
    "BFS.C77_common"
   ],
   "note": ""
  },
  {
   "property": "C78",
   "status": "proved",
   "theorems": [
    "BFS.C78_transitivity"
   ],
   "note": ""
  },
  {
   "property": "C79",
   "status": "partial",
   "theorems": [
    "BFS.C79_refuted",
    "BFS.C79_crash",
    "BFS.C79_square_partial"
   ],
   "note": "Refuted: a node without second neighbours in a network that is not connected makes the function dereference NULL. Proved for connected networks whose products fit an int."
  },
  {
   "property": "C80",
   "status": "proved",
   "theorems": [
    "BFS.C80_one_node",
    "BFS.C80_overflow"
   ],
   "note": ""
  },
  {
   "property": "C81",
   "status": "proved",
   "theorems": [
    "BFS.C81_count",
    "BFS.C81_one",
    "BFS.C81_empty"
   ],
   "note": ""
  },
  {
   "property": "C82",
   "status": "proved",
   "theorems": [
    "BFS.C82_largest"
   ],
   "note": ""
  },
  {
   "property": "C83",
   "status": "proved",
   "theorems": [
    "GR.C83_largest_net"
   ],
   "note": ""
  },
  {
   "property": "C84",
   "status": "partial",
   "theorems": [
    "GR.C84_refuted",
    "GR.C84_all_sets_partial",
    "GR.C84_directed_crash"
   ],
   "note": "Refuted: ClearAdjacencies reads the number of the target of a link before it is set, so every component without node 0 loses all its links. Proved: number and nodes of the networks, and the links of the component of node 0. Directed networks with a link out of the component of node 0 dereference NULL."
  },
  {
   "property": "C85",
   "status": "proved",
   "theorems": [
    "GP.C85_copy_map",
    "GP.C85_copy_counters"
   ],
   "note": ""
  },
  {
   "property": "C86",
   "status": "partial",
   "theorems": [
    "GP.C86_refuted",
    "GP.C86_crash",
    "GP.C86_groups_partial"
   ],
   "note": "Refuted: unless the size divides the number of nodes plus one, a NULL pointer is dereferenced. Proved for the remaining sizes."
  },
  {
   "property": "C87",
   "status": "partial",
   "theorems": [
    "GP.C87_refuted",
    "GP.C87_groups_partial",
    "GP.C87_unassigned"
   ],
   "note": "Refuted: inner links are counted twice, because the nodes are already marked with the group. Proved: the groups and their nodes, and the exact value of the wrong counters."
  },
  {
   "property": "C88",
   "status": "proved",
   "theorems": [
    "GR.C88_group_net"
   ],
   "note": ""
  },
  {
   "property": "C89",
   "status": "partial",
   "theorems": [
    "GR.C89_refuted",
    "GR.C89_first_node_partial",
    "GR.C89_copies"
   ],
   "note": "Refuted: links are rewired by a number that is still 0, so all of them end at the first node; nodes linked with several nodes of the group are created several times. Proved: the nodes created and the number of links of each."
  },
  {
   "property": "C90",
   "status": "proved",
   "theorems": [
    "BP.C90_build",
    "BP.C90_bad_line",
    "BP.C90_columns"
   ],
   "note": ""
  },
  {
   "property": "C91",
   "status": "proved",
   "theorems": [
    "BP.C91_remove_first",
    "BP.C91_remove_second",
    "BP.C91_unknown_label"
   ],
   "note": ""
  },
  {
   "property": "C92",
   "status": "partial",
   "theorems": [
    "BP.C92_refuted",
    "BP.C92_teams_partial",
    "BP.C92_never_returns",
    "BP.C92_colour"
   ],
   "note": "Refuted when probabilities of the modules are given: a random number that is exactly 0 chooses module -1. Proved without given probabilities, and with them when no random number is 0."
  },
  {
   "property": "C93",
   "status": "partial",
   "theorems": [
    "BP.C93_refuted",
    "BP.C93_team_size_partial"
   ],
   "note": "Refuted: the program passes the module size in place of the team size. Proved: all teams have as many members as a module has agents, whatever team size is given."
  },
  {
   "property": "C94",
   "status": "partial",
   "theorems": [
    "BP.C94_refuted",
    "BP.C94_participation_partial",
    "BP.C94_not_a_number",
    "BP.C94_out_of_bounds",
    "BP.C94_mean_partial"
   ],
   "note": "Refuted: the value is 0/0 for a node without team mates, and then so is the mean. Proved for all other nodes, and for the mean when every node has a team mate."
  },
  {
   "property": "C95",
   "status": "proved",
   "theorems": [
    "LY.C95_box",
    "LY.C95_box_3d",
    "LY.C95_no_extent",
    "LY.C95_per_row"
   ],
   "note": "Over ordered fields; rounding of floating point is not modelled."
  },
  {
   "property": "C96",
   "status": "proved",
   "theorems": [
    "LY.C96_pairs",
    "LY.C96_once",
    "LY.C96_pairs_3d",
    "LY.C96_once_3d"
   ],
   "note": ""
  },
  {
   "property": "C97",
   "status": "proved",
   "theorems": [
    "LY.C97_forces",
    "LY.C97_balance",
    "LY.C97_cutoff",
    "LY.C97_energy"
   ],
   "note": "Real arithmetic."
  },
  {
   "property": "C98",
   "status": "partial",
   "theorems": [
    "LY.C98_refuted",
    "LY.C98_near_partial"
   ],
   "note": "Refuted for wide and low drawings: the cutoff is the mean of the two sides of a box, more than the shorter one. Proved for nodes nearer than the sides of a box in both directions, and for all nodes within the cutoff in a drawing as wide as it is high."
  },
  {
   "property": "C99",
   "status": "proved",
   "theorems": [
    "LY.C99_normalize",
    "LY.C99_flat"
   ],
   "note": "Real arithmetic."
  },
  {
   "property": "C164",
   "status": "partial",
   "theorems": [
    "PG.C164_plane_partial",
    "PG.C164_pulled_partial",
    "PG.C164_space_partial",
    "PG.C164_crash",
    "PG.C164_same_place",
    "PG.C164_no_steps",
    "PG.C164_no_steps_space",
    "PG.C164_refuted"
   ],
   "note": "Proved: whatever is printed is as stated (in space: the square is filled if the last state is within 10^100). That something is printed is refuted: linked labels that start at the same place give NaN. Real arithmetic; a step of length 0 is left out."
  },
  {
   "property": "C165",
   "status": "partial",
   "theorems": [
    "PG.C165_partial",
    "PG.C165_crash"
   ],
   "note": "Proved: whatever is printed is as stated. As in C164 there is no output when two linked labels start at the same place."
  },
  {
   "property": "C166",
   "status": "proved",
   "theorems": [
    "PG.C166_legacy",
    "PG.C166_crash",
    "PG.C166_never_ends"
   ],
   "note": "All files of the program, for degrees up to 46340 (squares of degrees are computed as int). The program never ends if asked for random graphs when no two links can be switched; the interactive mode and the call without -f are undefined behaviour."
  },
  {
   "property": "C167",
   "status": "partial",
   "theorems": [
    "BP.C167_table_partial",
    "BP.C167_wrong_file"
   ],
   "note": "Proved: the lines, for nodes with at most 46340 ties when degrees are used. Refuted: they go to the standard output, the file gets nothing."
  },
  {
   "property": "C168",
   "status": "partial",
   "theorems": [
    "PG.C168_structure_partial",
    "PG.C168_one",
    "PG.C168_never_ends"
   ],
   "note": "As in C105 the scratch array that is never initialised is supposed to hold zeros. The result is not a finite number for nrep at most 1 or equal errors; no run ends if no two links can be switched."
  },
  {
   "property": "C169",
   "status": "proved",
   "theorems": [
    "GP.C169_compress",
    "GP.C169_counts",
    "GP.C169_group",
    "GP.C169_found",
    "GP.C169_link",
    "GP.C169_strengths",
    "GP.C169_reset"
   ],
   "note": "The list of groups is a linked list in memory; the lists of nodes of the groups are left out. GetLink dereferences NULL if there is no link (its callers are commented out)."
  },
  {
   "property": "C170",
   "status": "partial",
   "theorems": [
    "TS.C170_free_partial",
    "TS.C170_tagged",
    "TS.C170_crash"
   ],
   "note": "FreeLabelDict frees every block once with the tree of lib/search.c, and crashes with the tree of a recent GNU C library, which keeps the colour in the lowest bit of the left pointer (layout taken on trust) unless no node is red. Proved for the first, refuted for the second."
  },
  {
   "property": "C171",
   "status": "proved",
   "theorems": [
    "GP.C171_remove",
    "GP.C171_twice"
   ],
   "note": "Partition, lists of nodes and hierarchy are blocks in memory; free of a block that is not allocated is undefined behaviour."
  },
  {
   "property": "C172",
   "status": "proved",
   "theorems": [
    "LS.C172_step",
    "LS.C172_uniform",
    "LS.C172_balance",
    "LS.C172_unique",
    "LS.C172_labels"
   ],
   "note": "Exponentials and energies are real numbers, random numbers rational. The probabilities of C172_balance are those of the numbers in C172_step if the random numbers are independent and uniform (trusted)."
  },
  {
   "property": "C173",
   "status": "proved",
   "theorems": [
    "BK.C173_step",
    "BK.C173_balance",
    "BK.C173_labels"
   ],
   "note": "For the AND, OR and OD kernels at once (Computes); as C172."
  },
  {
   "property": "C174",
   "status": "proved",
   "theorems": [
    "KS.C174_step",
    "KS.C174_balance",
    "KS.C174_labels"
   ],
   "note": "As C172."
  },
  {
   "property": "C175",
   "status": "proved",
   "theorems": [
    "RC.C175_first",
    "RC.C175_second",
    "RC.C175_balance",
    "RC.C175_unique",
    "RC.C175_labels"
   ],
   "note": "For two and K ratings at once (Pot); as C172."
  },
  {
   "property": "C176",
   "status": "proved",
   "theorems": [
    "LS.C176_law",
    "LS.C176_balance"
   ],
   "note": "The condition of two listed groups is needed: with one group the program reads unset variables (C33)."
  },
  {
   "property": "C177",
   "status": "proved",
   "theorems": [
    "BK.C177_law",
    "BK.C177_sparse",
    "BK.C177_balance"
   ],
   "note": "For every pair term; C177_sparse for the sampler with the Beta prior."
  },
  {
   "property": "C178",
   "status": "proved",
   "theorems": [
    "RC.C178_law",
    "RC.C178_balance",
    "RC.C178_swap"
   ],
   "note": ""
  },
  {
   "property": "C179",
   "status": "proved",
   "theorems": [
    "LS.C179_converges",
    "BK.C179_converges",
    "RC.C179_converges"
   ],
   "note": "Exact arithmetic, independent uniform random numbers. GibbsLinkScoreStep and the versions of multiblock.c and only_deg.c are undefined once one group is left or a draw is 0 (C33, C65, C70), so for them the theorem describes the steps as long as they are defined; GibbsStepKState is defined unless a draw is 0 (C114)."
  },
  {
   "property": "C180",
   "status": "partial",
   "theorems": [
    "LS.C180_converges_partial",
    "BK.C180_converges_partial",
    "KS.C180_converges_partial",
    "RC.C180_converges_partial",
    "RC.C180_proposals",
    "LS.C180_alternates",
    "LS.C180_two_refuted"
   ],
   "note": "Proved for three nodes or more (in each set). Refuted for two nodes: two linked nodes alternate between one group and two for ever. Exact arithmetic, independent uniform random numbers; in multiblock.c and only_deg.c as long as the steps are defined (C65)."
  },
  {
   "property": "C181",
   "status": "proved",
   "theorems": [
    "LS.C181_weight",
    "LS.C181_score",
    "LS.C181_posterior",
    "LS.C181_metropolis",
    "LS.C181_heat_bath",
    "LS.C181_pair"
   ],
   "note": "Exact arithmetic, independent uniform random numbers. For LinkScore three nodes or more are needed (C180). GibbsLinkScoreStep is undefined once one group is left or a draw is 0 (C33), so for it the theorem describes the steps as long as they are defined. How soon the samples are late enough is bounded by C179 and C180; that the program waits so long is not claimed."
  },
  {
   "property": "C182",
   "status": "proved",
   "theorems": [
    "RC.C182_weight",
    "RC.C182_estimate",
    "RC.C182_two",
    "RC.C182_posterior",
    "RC.C182_metropolis",
    "RC.C182_heat_bath",
    "MH.chance_eq",
    "MH.chance_next"
   ],
   "note": "Exact arithmetic, independent uniform random numbers; three nodes or more in each set for the Metropolis samplers (C180). The heat bath is defined unless a draw is 0 (C114). That the program waits long enough is not claimed. The uniform distribution of distributions of ratings is stated by its equivalent for sequences: all multisets, and all their orders, are equally likely."
  },
  {
   "property": "C183",
   "status": "proved",
   "theorems": [
    "KS.C183_weight",
    "KS.C183_estimate",
    "KS.C183_posterior",
    "KS.C183_metropolis"
   ],
   "note": "As C182, three nodes or more."
  },
  {
   "property": "C184",
   "status": "proved",
   "theorems": [
    "BK.C184_models",
    "BK.C184_weight",
    "BK.C184_score",
    "BK.C184_posterior",
    "BK.C184_metropolis",
    "BK.C184_heat_bath"
   ],
   "note": "Exact arithmetic, independent uniform random numbers; three nodes or more for the Metropolis samplers (C180); as long as the steps are defined (C65, C70). In the OR model the scores are one minus the posterior probability (C66)."
  },
  {
   "property": "C185",
   "status": "proved",
   "theorems": [
    "LS.C185_metropolis",
    "LS.C185_heat_bath",
    "LS.C185_lists",
    "KS.C185_metropolis",
    "BK.C185_metropolis",
    "BK.C185_heat_bath",
    "RC.C185_metropolis",
    "RC.C185_heat_bath",
    "MH.average_error",
    "MH.run_project"
   ],
   "note": "Exact arithmetic, independent uniform random numbers; three nodes or more (in each set) for the Metropolis samplers (C180). The constant C is explicit in the proofs and very large for large networks; a useful size is not claimed. The heat-bath steps as long as they are defined (C33, C65, C70, C114)."
  },
  {
   "property": "C186",
   "status": "proved",
   "theorems": [
    "MH.C186_share",
    "MH.C186_accept",
    "MH.C186_attempt",
    "MH.C186_limit",
    "LS.C186_score",
    "LS.C186_two",
    "KS.C186_score",
    "BK.C186_score",
    "MH.C186_interval",
    "MH.C186_hits",
    "MH.C186_near",
    "MH.C186_sweep",
    "MH.C186_sweep_limit",
    "LS.C186_heat_bath",
    "BK.C186_heat_bath",
    "RC.C186_metropolis",
    "RC.C186_heat_bath",
    "MH.C186_in_turn",
    "MH.C186_listed",
    "LS.C186_lists",
    "BK.C186_lists"
   ],
   "note": "Independent values k/M, all equally likely; exact arithmetic otherwise. Three nodes or more (in each set) for the Metropolis samplers (C180), two in C186_two; M at least 4. The constant is explicit in the proof and very large for large networks. For the heat bath the value 0 is left out, since the program is not defined on it (C33), and labels are drawn from all labels; C186_listed, C186_in_turn and C186_lists treat the choice among listed groups and one empty group."
  },
  {
   "property": "C187",
   "status": "proved",
   "theorems": [
    "LS.C187_metropolis",
    "LS.C187_heat_bath",
    "KS.C187_metropolis",
    "BK.C187_metropolis",
    "BK.C187_heat_bath",
    "RC.C187_metropolis",
    "RC.C187_heat_bath",
    "MH.average_bias",
    "MH.average_values",
    "LS.C187_lists",
    "BK.C187_lists"
   ],
   "note": "As C186: independent values k/M, all equally likely (not 0 for the heat bath); exact arithmetic otherwise; three nodes or more (in each set) for the Metropolis samplers. The constant is very large for large networks."
  }
 ]
}