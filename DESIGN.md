# Formal model of rgraph in Lean 4 — design

Source: `/repo` (seeslab/rgraph, C). The code is read as text only. The model
lives in `lean/Verif/`, one directory per topic; in each topic

* `Model*.lean` – the C functions, one Lean definition per function, each with a
  comment citing file and lines and its simplifications,
* `Spec*.lean` – a small specification written without the model's helpers,
* `Lemmas*.lean` – proof machinery,
* `Props*.lean` – the property theorems (named `Cnn_…`) and, next to each, an
  `example` that meets its hypotheses on a non-trivial concrete case.

## Trusted base

* Lean 4.33.0 kernel; Mathlib as installed. No axioms are added. Every theorem
  depends at most on `propext`, `Classical.choice`, `Quot.sound`
  (checked with `#print axioms`, see `scripts` note at the end).
* The reading of C by the author of the model: each definition is a hand
  transcription of the cited lines. There is no extraction from C.
* Numbers. `double` arithmetic is modelled exactly, over `ℚ` where only field
  operations and comparisons occur and over `ℝ` where `log`/`lgamma` occur.
  Rounding, overflow to infinity and NaN are not modelled. Division by zero is
  made a separate outcome (or an explicit hypothesis) wherever it is
  reachable. `int`/`unsigned` are `Int`/`Nat`; where wrap-around is
  reachable from the API (e.g. `for (i=M-1; i>=M; i--)` with `M = 0`) it is
  modelled as a separate undefined outcome.
* Memory. Pointers to nodes are modelled as indices (`Option ℕ`, `none` =
  NULL). Array accesses out of bounds, NULL dereference, reads of
  uninitialised memory are the outcome `none` ("undefined behaviour") of the
  model function, or an explicit garbage parameter over which the theorem
  quantifies. Allocation never fails. `free` is not modelled except where a
  use after free is the point of the property.
* Randomness. `gsl_rng_uniform` is a tape: a list of rationals in `[0,1)`;
  a function consumes a prefix, and the outcome on an exhausted tape means "the
  run is not finished". Theorems quantify over all tapes, hence over all
  finite executions. The Metropolis test `u < exp(dE/T)` is an arbitrary
  decision function of `(dE, T, u)`; theorems quantify over it.
* Strings are lists of characters / `String`; libc containers (`tsearch`,
  `hsearch`, `qsort`) are modelled by their specification (association map,
  sorting permutation). The tree of `lib/search.c`, the replacement of `tsearch`
  shipped with the code, is itself modelled and proved (C110–C113).

## Plan per property

| id | model | how proved |
|----|-------|-----------|
| C01 | `Partition` with doubly linked lists as `prev/next/first/last` maps; `ChangeModule`, `MergeModules`, `AssignNodesToModules`, `CompressPartition`, `CopyPartitionStruct` | representation invariant (`WF`) + induction over operation sequences; UB outcome excluded |
| C02 | `dEChangeModule`, `PartitionModularity` over CSR arrays | both sides refined to double sums over the membership function, then algebra |
| C03 | `dEMergeModules` | as C02 |
| C04 | `PartitionModularity` | refinement of list walks to a sum over ordered pairs |
| C05 | `CompressPartition` | loop invariant on the pair (next empty slot, index from the end); all-empty case is UB: refuted with a witness, the rest `_partial` |
| C06 | `EdgeListToAdjaArray`, `CreateAdjaArray` | loop invariant on fill positions |
| C07 | `GeneralSA`, `SplitModuleSA`, `SplitModuleByComponent` over a tape | invariant through all loops |
| C08 | same | refuted (NULL result), theorem that `nochange_limit = 1` always gives NULL; `_partial`: if a best was saved it is returned |
| C09 | same split functions | invariant through loops |
| C10 | `SplitModuleByComponent` | refuted by a 3-node path; `_partial` for what it does compute |
| C11 | `PartitionRolesMetrics`, `GetRole` | inequalities over ℚ / ℝ |
| C12 | `ProjectBipartEdgeList` with an explicit garbage cell | refuted: the cell past the end is always read and decides whether the last edge is stored; `_partial` |
| C13 | `EdgeListFileInput` on parsed lines | fold invariant |
| C14 | `ClusteringOutput`, `AssignNodesToModulesFromFile` on character lists | refuted for every partition (the reader overflows `sep` or never ends); correct on files without trailing tabs |
| C15 | networks as arrays of nodes with neighbour lists and caches | invariant over histories; soft insertion refuted |
| C16 | `FBuildNetwork` on parsed lines | refinement to a weighted relation |
| C17 | `RandomizeSymmetricNetwork` | invariant over swaps |
| C18 | BFS list | layer invariant = distance |
| C19 | `IsThereNode` with label addresses | refuted, pointer equality characterised |
| C20 | `AverageSquaredDegree` | refuted; equals the floor |
| C21 | clustering, Jaccard, overlap | counting inequalities |
| C22 | `GetLargestWeaklyConnectedSet` | refuted with the 4-node witness |
| C23 | `AddNodeToGroup` … `MapPartToNet` | invariant over histories |
| C24 | `SACommunityIdent` energy formulas, `Modularity` | algebra |
| C25 | `FPrintPartition`, `FCreatePartition` | round trip by induction |
| C53 | `FReadPartition` | fold over the items of the file |
| C26 | `MutualInformation` | Gibbs inequality in ℝ |
| C27 | `CorrectlyClassified` | refuted: at most 1/2 |
| C28 | `ClustersPartition` | reachability invariant |
| C29 | `LinkScoreMCStep`, `PartitionH` | invariant; needs the scratch array to be 0 on empty groups, refuted without |
| C30 | `LSMCStepKState`, `LSHKState` | invariant, undo lemma |
| C31 | `LinkScore` accumulation | bounds and symmetry by induction over samples |
| C32 | `LSMultiLinkScoreKState` accumulation | induction over iterations with restarts |
| C33 | `GibbsLinkScoreStep` with uninitialised variables as options | refuted for draw 0 and for the one-group state, which some draws reach on every network |
| C34 | `MCStep2State`, `H2State` | invariant, undo lemma |
| C35 | `BuildUnobservedSet`, `CountUnobserved` | counting |
| C36 | `RandomizeBipart` | invariant over swaps |
| C37 | `ProjectBipart`, `ProjectBipartWeighted` | refinement; weighted version refuted by truncation |
| C38 | heap model of `datastruct.c` | refinement to lists |
| C39 | `Choose`, memo tables | induction; table invariant |
| C40 | `LaplacianMat` | loop invariant over the matrix |
| C41 | `mean`, `stddev`, `max`, `min` | folds, algebra over ℝ |
| C42 | `fact` with a 64 bit range check | induction |
| C43 | `CountLinesInFile` as a `fgets` loop | refuted for long lines, `_partial` for short ones |
| C44 | `CopyNetwork`, `RewireAdjacencyByLabel` | refinement to a weighted relation; refuted for equal labels |
| C45 | `TotalNLinks`, `AverageDegree` | counting; self links refuted |
| C46 | `AveragePathLength`, `AverageInverseDistance` | layers of the search; overflow for distances of 10000 or more |
| C47 | `BuildNetFromGroup`, `SAGroupSplit` over a tape, with the clusters of C28 | permutation invariant; refuted for a draw of 0 |
| C48 | `SACommunityIdent`, `CopyPartition`, `MapPartToNet` | invariant energy = modularity through all loops |
| C49 | `MCStepKState`, `HKState` | same proof as C34, generic in the energy of a pair of groups |
| C50 | `MultiLinkScore2State`, `MultiLinkScoreKState` | invariant of the sampler; equality of the cleaned networks |
| C51 | `CopyBipart` | loop invariant; lists of the second set come out sorted |
| C52 | `RemoveRatings` | loop invariant over a list changed while walked |
| C54 | `CalculateNodeBetweenness` with queue, stack and predecessor lists, `sigma` an `int`, against counts of walks | proved |
| C55 | `CalculateLinkBetweenness` on top of the breadth-first lists | refuted in general, `_partial` for unique paths; conservation proved |
| C57 | `EmptyGraph`, `ERGraph`, `UndirectedBlockGraph` (src/models.c): nodes, labels, one random number for each pair | proved |
| C58 | `GirvanNewmanGraph`: matrix of probabilities with unfilled lower triangle, expected degrees | proved |
| C59 | `PAGraph` with `paList` in its buffer of `2*S*m` cells, redraws while the link exists | partial |
| C60 | `ModularityBipart` (src/bipartite.c), `int` and `unsigned` products | proved |
| C61 | `ParticipationCoefficient`, weighted version, within-module scores (src/modules.c) | proved |
| C62 | `CatalogRoleIdent`, `CatalogRoleIdentStrength` on top of `MapPartToNet` | proved |
| C63 | `ModularityBipartWeighted` | partial |
| C64 | the four samplers of src/multiblock.c (one model, parametrised by the terms) | proved |
| C65 | the same, table of `InitializeHarmonicList` | partial |
| C66 | terms and scores of src/multiblock.c, src/only_deg.c, src/missing.c against integrals | proved |
| C67 | `LogDegeneracy` | proved |
| C68 | the samplers of src/only_deg.c | partial |
| C69 | src/sparse_missing.c against Beta integrals (Mathlib's Beta density) | proved |
| C70 | definedness of the same | partial |
| C71, C72 | src/graph.c `AddTwoNetworks` against the union of labelled links | proved, partial |
| C73 | src/graph.c `CompareTwoNetworks` against sets of labels and unordered pairs | proved |
| C74 | src/graph.c `RemoveRandomLinks` | proved |
| C75 | src/graph.c `AddRandomLinks` | partial |
| C76, C77 | src/graph.c `Assortativity`, `CalculateKnn`, `CommonNeighbors` | proved |
| C78 | src/graph.c `ClusteringCoefficient2` against triangles and triples | proved |
| C79, C80 | src/graph.c `SquareClustering`, `OneNodeSquareClustering` | partial, proved |
| C81, C82 | src/graph.c `CountStronglyConnectedSets`, `GetLargestStronglyConnectedSet` against classes of mutual reachability | proved |
| C83 | src/graph.c `GetLargestStronglyConnectedSet`, `CleanAdjacencies`, `RewireAdjacencyByLabel` against the induced subnetwork | proved |
| C84 | src/graph.c `GetAllConnectedSets`, `ClearAdjacencies` | partial |
| C85 | src/modules.c `CopyPartition`, `CopyGroup` | proved |
| C86, C87 | src/modules.c `CreateEquiNPartition`, `CreatePartitionFromInGroup` | partial |
| C88, C89 | src/modules.c `BuildNetFromGroup`, `BuildNetFromGroupNeig` against the induced subnetwork | proved, partial |
| C90, C91 | src/bipartite.c `FBuildNetworkBipart`, `RemoveNodeBipart` | proved |
| C92, C93 | src/bipartite.c `BuildModularBipartiteNetwork`, utils/main_modularbipart.c | partial |
| C94 | src/bipartite.c `ParticipationCoefficientBipart` | partial |
| C95, C96, C104 | src/layout.c `AssignBox`, box loops | proved; C104 partial |
| C97, C98 | src/layout.c `CalculateNodeForces` | proved; C98 partial |
| C99, C100, C101, C102 | src/layout.c `NormalizeCoordinates`, `MDGraphLayout` | proved; C102 partial |
| C103 | src/layout.c `ArrangeComponents` | partial |
| C105, C106, C107 | src/missing.c `SBMError`, `NetworkScore`, `PartitionSampling` | partial: uninitialised scratch array |
| C108, C109 | src/missing.c `NetReconstruct`, `NetFromSBMScores` | C108 partial; C109 proved |
| C110, C111, C112 | lib/search.c `tsearch`, `tfind`, `tdelete`, `twalk`, `tdestroy` | proved |
| C113 | src/graph.c `MakeLabelDict`, `GetNodeDict`, dictionary of `FBuildNetwork` | proved |
| C114 | src/recommend.c `GibbsStepKState` | partial: a random number 0 reads `slg[-1]` |
| C115 | src/recommend.c `GibbsMultiLinkScoreKState` | partial: as C114 |
| C116 | src/conflict.c `AllLinkScore2State`, conflict/main_conflict.c | proved |
| C117 | src/graph.c `FPrintNetAdjacencyList`, `FPrintDegrees` with `FBuildNetwork` | proved |
| C118 | src/bipartite.c `FPrintBipart` with `FBuildNetworkBipart` | proved |
| C119 | src/graph.c `FPrintPajekFile`, src/bipartite.c `FPrintPajekFileBipart`, src/modules.c `FPrintPajekPartitionFile` | proved |
| C120 | src/modules.c fast group operations, `MapPartToNetFast` | proved |
| C121 | src/modules.c `BlockModel` | partial: types p and e are refuted |
| C122 | src/modules.c `RemoveWithinGroupLinks`, `RemoveBetweenGroupLinks`, `RemoveInterGroupLinks` | refuted: use after free |
| C123 | src/modules.c `GroupSizeStatistics` | proved |
| C124 | src/modules.c `MapPartToNetSoft` | partial: counters lost, missing labels crash |
| C125 | src/modules.c `CreateEquiNPartitionSoft` | proved |
| C126 | src/graph.c `RemoveIsolatedNodes`, `RenumberNodes` | proved (hypothesis on links) |
| C127 | src/graph.c `FPrintDistanceHistogram`, `FPrintDistanceHistogramFromNode` | proved |
| C128 | src/graph.c `CalculateBiggestLinkBetweenness` | partial: wrong link when shortest paths are not unique |
| C129 | src/graph.c `NodeBetweennessStatistics` | proved |
| C130 | src/recommend.c `ReadQueries` | proved |
| C131 | recommender/main_multi_recommend_2.c, main_multi_recommend_k.c | partial: missing seed not detected |
| C132 | thermalisations in src/missing.c, multiblock.c, recommend.c | partial: the test without EPSILON need not end |
| C133 | decorrelation steps in src/missing.c, multiblock.c, only_deg.c, recommend.c | partial: first time is 0 for fewer than 20 nodes |
| C134 | samplers with their own warm-up | proved (refinement of C29-C32, C50, C105-C107) |
| C135 | networks in memory, src/graph.c | proved (separation of blocks, refinement of Verif/Graph) |
| C136 | `CopyNetwork` in memory | proved (frame property of the representation of C135) |
| C137-C139 | the program `netcarto` as a whole, in terms of the labels in the file (Verif/Netcarto) | partial: crashes found |
| C140 | `GetLargestWeaklyConnectedSet` on undirected networks (BFS/WeakAll, Graph/Giant) | proved |
| C141, C142 | `LaplacianSpectrum`, `Synchronizability` (Verif/Spectrum), with the gap `1/(2n^2)` of the Laplacian | proved for exact eigenvalues |
| C143-C148 | the programs countlinks, netcompare, nodeprop, getgiant, netrandomize, lapspec from file to output, in terms of labels (Verif/Utils) | proved |
| C149 | the program netprop from file to output (Verif/Utils/NetProp*) | partial: `K_K2` wrong, limits on size |
| C150-C153 | the programs of reliability/, multiblock/ and only_deg/ that score links, from file to output, in terms of labels (Verif/Programs) | refinement of C31, C64, C68, C69; counts of Finsets of nodes turned into numbers of edges between labels |
| C154-C156 | mutualinfo, bipartitemodularity and bipartitemodularity_w from files to output, in terms of labels (Verif/Programs/Part*, Groups, BiMod) | words of a text by splitOnP; refinement of C26, C60, C63, C90; sums over node numbers turned into sums over labels |
| C157-C158 | reliability_links_k and reliability_reconstruct from files to files, in terms of labels (Verif/Programs/K*, Rec*, Reconstruct; Verif/KState/Average) | refinement of C32, C106, C108, C134; sums over samples become sums over divisions of labels; edges counted by an injective image |
| C159-C160 | the recommenders and conflict from files to output, in terms of labels (Verif/Programs/Rating*) | refinement of C50, C115, C116, C130, C134; ratings between groups counted by an injective image; groups of nodes become groups of labels |
| C161, C162, C163 | src/layout.c `CalculateNodeForces3D`, `MDGraphLayout3D`, `MDGraphLayout2Dp` | C161 proved; C162, C163 partial (refuted for one node) |
| C164, C165 | utils/main_netlayout.c, utils/main_multinetlayout.c | partial: what is printed is proved; that something is printed is refuted (C164) |
| C166 | netcarto/main_netcarto_legacy.c from file to files, in terms of labels (Verif/Programs/Legacy*) | refinement of C17, C48, C49, C119 and the roles; sums over node numbers turned into sums over labels by an injective image |
| C167 | src/bipartite.c `FPrintTabNodesBipart` (and `ModularityBipartWeightedFast`, under C63) | partial: lines proved from C37 and C61, the file is refuted |
| C168 | src/missing.c `SBMStructureScore` | partial: uninitialised scratch array; refinement of C17, C41, C105 |
| C169 | `CompressPart`, `GetGroup`, `NGroups`, `NNonEmptyGroups` on cells in memory, `GetLink`, `StrengthToGroupByNum`, `ResetNetGroup` (Verif/Group/Lookup*) | induction on the linked list |
| C170 | `FreeLabelDict` on the nodes of a tree in memory (Verif/Search/Free*) | induction on the tree; refuted for the layout of a recent GNU C library (trusted) |
| C171 | `RemovePartition`, `FreeAdjacencyList`, `FreeNodeLis` on blocks in memory (Verif/Group/Remove*) | induction on the hierarchy |
| C172 | one attempt of `LinkScoreMCStep` as a Metropolis step; detailed balance, irreducibility, uniqueness; weight of all labellings (Verif/Missing/Balance, Verif/Basic/Balance) | energy change is exact (C29); reversible chains; embeddings of labels |
| C173 | the same for src/multiblock.c and src/only_deg.c (Verif/Block/Balance) | as C172, for a general pair term |
| C174 | the same for `LSMCStepKState` (Verif/KState/Balance) | as C172 |
| C175 | the same for `MCStep2State`, `MCStepKState` (Verif/Recommend/Balance) | as C172, mixture of two Metropolis steps |
| C176 | law and stationarity of the heat bath in `GibbsLinkScoreStep` (Verif/Basic/HeatBath, Verif/Missing/GibbsBalance) | exact intervals from the walk along the list; empty groups merged up to labels; detailed balance of the heat bath |
| C177 | the same for the two-layer, degree and sparse samplers (Verif/Block/GibbsBalance) | as C176 |
| C178 | the same for `GibbsStepKState` (Verif/Recommend/GibbsBalance) | C114 and C176, both sets |
| C179 | convergence of the heat-bath sweeps (Verif/Basic/Sweep, Verif/Convergence) | one sweep gives every division a probability of at least (exp(-D)/n)^n, which contracts the range of every mean; the mean over the Boltzmann distribution is kept by each move |
| C180 | convergence of the Metropolis attempts; counterexample for two nodes | two attempts per node reach every division if there is a third label; two linked nodes have constant energy, so every attempt is accepted |
| C181 | posterior probability of links (Verif/Missing/Posterior) | Bayesian model stated with integrals; Beta integrals give the energy and the term of the score, C172 removes the labels, C179 and C180 give the limit |
| C182 | posterior probability of ratings (Verif/Recommend/Posterior) | counts of multisets and orders give the energy and Laplace's rule, C175 removes the labels, C179 and C180 give the limit |
| C183 | the same for one set of nodes (Verif/KState/Posterior) | as C181 and C182 |
| C184 | the same for multiblock.c, only_deg.c and the sparse model (Verif/Block/Posterior) | as C181 for all models of patterns with the recurrence of probabilities |
| C185 | law of large numbers for the samplers (Verif/Basic/Sample, Verif/Accuracy) | mean square of a sum of samples by induction on their number, correlations summed geometrically (C179, C180); Chebyshev's inequality |
| C186 | attempts and sweeps with random numbers `k / M` (Verif/Rounded, Verif/RoundedSweep, Verif/RoundedLists) | values counted by intervals; the attempt compared with that of C172 move by move; differences summed geometrically with C180 |
| C187 | law of large numbers with random numbers `k / M` (Verif/RoundedAccuracy) | as C185, with means that come within `C / M` of the posterior probability by C186 |


Findings (properties the code violates) are listed at the end of this file as
they are proved.

## Findings

Each line is a behaviour of the code that breaks the property named; it is proved
in the theorem(s) given.

* C01 – `CreatePartition` with more modules than nodes writes past its arrays; `MergeModules(i,i)` destroys the module.
* C06 – self loops in an edge list leave phantom neighbour slots and wrong strengths.
* C08 – `GeneralSA` returns NULL with `nochange_limit = 1` or `Ti ≤ Tf`, can drop a better earlier partition, and never returns with one module.
* C10 – `SplitModuleByComponent` counts the components of the whole graph, not of the module.
* C11 – `PartitionRolesMetrics` adds to what the caller left in the participation array; a node whose links weigh 0 gives 0/0.
* C15 – `AddAdjacencySoft` leaves stale caches; removing an absent link is undefined.
* C16 – labels of 100 bytes or more overflow the buffer of `FBuildNetwork`.
* C17 – `RandomizeSymmetricNetwork` reads out of bounds without links, loses weights, and never ends when no two links can be switched, as in stars and complete graphs (`GR.C17_never_ends`).
* C19 – `IsThereNode` compares addresses of labels.
* C20 – `AverageSquaredDegree` truncates to an integer.
* C21 – `ClusteringCoefficient` is 0/0 without a node of degree 2; `TopologicalOverlap` is 0/0 with an isolated node.
* C22 – `GetLargestWeaklyConnectedSet` misses nodes.
* C23 – `RemoveNodeFromGroup` leaves `inGroup` stale; `MergeGroups(g,g)` never ends.
* C28 – `ClustersPartition` repeats nodes on directed networks and dereferences NULL on the empty network.
* C29 – `LinkScoreMCStep` uses uninitialised scratch memory at empty groups off the shortlist; with one node it never returns.
* C33 – `GibbsLinkScoreStep` reads uninitialised variables when all nodes are in one group (reachable on every network with two nodes), and `slg[-1]` when a draw is exactly 0.
* C39 – `Choose(n,k)` is 1 for `k < 0`; `FastLogChoose` reads out of its table for some arguments.
* C40 – `LaplacianMat` returns NULL with self links.
* C42 – `fact` overflows from 21 on and does not end for negative arguments.
* C43 – `CountLinesInFile` counts a line of 999 characters or more twice.
* C44 – `CopyNetwork` is wrong when two nodes share a label.
* C45 – `TotalNLinks` (symmetric) loses self links.
* C46 – `AveragePathLength` overflows its histogram at distance 10000; `IsGraphConnected` looks one way only on directed networks.
* C47 – `SAGroupSplit` dereferences NULL when a draw is 0 with more than two clusters; its energy halves the link total and is not modularity.
* C48 – `SACommunityIdent` crashes with `Ti ≤ Tf` or without links, never returns with one group, and returns the current rather than the best partition.
* C30 – with a single node `LSMCStepKState` never returns.
* C34 – with one node in each set `MCStep2State` never returns.
* C36 – `RandomizeBipart` never returns when no switch is possible (complete networks, stars); switched links get weight 0.
* C37 – `ProjectBipartWeighted` cuts the sum of products to an `int`; pairs with a sum below 1 are not linked.
* C26 – `MutualInformation` multiplies two `int`s; from 46341 nodes on this can overflow. It is 0/0 when both partitions have one group.
* C27 – `CorrectlyClassified` adds the group sizes to the node count, so it never exceeds 1/2; a perfect match gives 1/2.
- C13: `EdgeListFileInput` reads labels with `%s` into buffers of 100 bytes; a longer label overflows (`FIO.C13_long_label`). A third
  field of an unweighted file, and anything after the weight, is ignored.
- C14: `ClusteringOutput` ends each line with a tab and a newline, and `AssignNodesToModulesFromFile` reads the separator with
  `%[\t\n]` into `char sep[2]`; the two characters and the NUL overflow it. If the first module is empty the file starts with
  a newline, `fscanf` returns 0 for ever and the loop never ends. No file written by the first function can be read
  by the second (`FIO.C14_round_trip_fails`).
- C25: `FCreatePartition` on an empty file uses a label that was never read, and on a file whose last group is not
  closed by `///` it adds nodes for ever (`FIO.C25_empty`, `FIO.C25_unclosed`).
- C53: `FReadPartition` always adds an empty group at the end; an empty line overflows the separator buffer or, at the start of the
  file, makes it loop for ever (`FIO.C53_defects`).
- C12: `ProjectBipartEdgeList` never sets `strength` before its first use, so the node strengths need not add up to 1
  (`NC.C12_strength_not_set`); it compares the last projected edge with the cell after it, and when that cell holds the same pair the
  targets of the last link are not written (`NC.C12_last_pair_lost`).
- C54: `sigma` counts shortest paths in an `int`; 22 layers of three nodes overflow it (`BT.C54_overflow`).
- C55: `CalculateLinkBetweenness` divides the paths evenly among predecessors instead of in proportion to their number of paths,
  so it differs from link betweenness when shortest paths are not unique (`BT.C55_not_betweenness`); on a directed network it runs off the
  end of an adjacency list (`BT.C55_directed_crash`).
- C57: the links of `ERGraph`, `PAGraph` and the block graphs have weight 0, not 1, so weighted quantities of these networks are 0.
- C59: in `PAGraph` a new node is in the list it chooses from after its first link; choosing itself counts as a link but adds none
  (`MD.C59_missing_links`). `S < m` writes past the array of nodes (`MD.C59_too_few`).
- C60: products of degrees above `INT_MAX` overflow (`BP.C60_overflow`); without a node of the second set with two links the function divides by zero.
- C61: `nlink * nlink` overflows from degree 46341 on (`GP.C61_overflow`); the weighted coefficient of a linked node of strength 0 is 0/0
  (all nodes of the networks made by `ERGraph`).
- C63: `ModularityBipartWeighted` divides by `W^2 - W`; with weights 3/5 the value is 5/2, with weights 1/2 it divides by zero
  (`BP.C63_not_normalised`).
- C64: the final loop of the OR versions maps the diagonal to 1 (self-links predicted with certainty), the AND versions leave it 0.
- C65: all functions of src/multiblock.c allocate harmonic numbers with indices `0 .. n(n-1)/2` but read up to `n(n-1)/2 + 2`. The energy of the
  partition with one group reads past the end (`BK.C65_energy`, `BK.C65_undefined`), so does every attempt to join the last two groups when one
  of them has one node (`BK.C65_join`); networks of one or two nodes always do (`BK.C65_small`). The Gibbs versions inherit the
  defects of C33 (`BK.C65_gibbs_stuck`).
- C67: the table of `LogDegeneracy` jumps by about 7.5 between 69 and 70 where its neighbours differ by 6.2: the last digits suggest that two sources were joined.
- C68: `GibbsLinkScoreMB_OD` starts from `PartitionHMB` instead of `PartitionHMB_OD`; all energies it prints are off by
  `L log 2 - (N - L) log (3/2)`, which is never 0 (`BK.C68_energy_wrong`). For networks of one or two nodes this call also reads past the end of its table.
- C70: `SparseGibbsLinkScore` on a network without links takes `lnGamma(0)` (GSL stops the program), on a complete network it divides by zero
  (`BK.C70_undefined`); it inherits the defects of C33 (`BK.C70_stuck`). Its energies count `n(n+1)/2` copies of a constant, one for each pair of
  groups, empty or not (`BK.C69_energy`); the constant cancels in all moves.
- C72: `AddTwoNetworks` gives weight 1 to the links that only its second argument has (`GR.C72_refuted`).
- C73: `CompareTwoNetworks` halves the numbers of links of directed networks too, losing one link if the number is odd (`GR.C73_directed_lost`).
- C74: `RemoveRandomLinks` on an undirected network with a self link reads past the end of its array of marks (`GR.C74_self_link_undefined`);
  it loops forever if asked to remove more links than there are (`GR.C74_too_many`).
- C75: `AddRandomLinks` ignores `symmetric_sw`: on directed networks both directions are added (`GR.C75_refuted`); it loops forever on a complete
  network (`GR.C75_complete`).
- C76: `Assortativity` keeps its sums in `int`s: any network with a node of 1024 neighbours or more overflows (`BFS.C76_hub`). `ClusteringCoefficient2`
  (C78) and `OneNodeSquareClustering` (C80) overflow too, for larger networks.
- C79: `SquareClustering` dereferences NULL on networks with a node that has no second neighbours and is not linked with all others, e.g. any
  isolated node (`BFS.C79_crash`). It also prints a line for every node.
- C84: `GetAllConnectedSets` calls `ClearAdjacencies` on soft links, whose `node` field is still 0, so the test is about node 0 for every link: all
  networks but the one with node 0 come back without links (`GR.C84_refuted`), and for directed networks a link that leaves the component of node 0 is
  kept and then dereferences NULL (`GR.C84_directed_crash`). `CleanAdjacencies`, used by `GetLargestStronglyConnectedSet`, compares labels and is right.
  The nodes in the returned networks also keep their original numbers, which are not consecutive, and more than 10001 nodes overrun the tables.
- C85: a copy made by `CopyPartition` has wrong link counters (inner links doubled) until `MapPartToNet` is called; the comment in the code says that the
  network must be mapped again, and `SACommunityIdent` does so.
- C86: `CreateEquiNPartition` runs past the end of the list of nodes unless the size divides the number of nodes plus one (`GP.C86_crash`); in
  particular groups of 2 need an odd number of nodes.
- C87: `CreatePartitionFromInGroup` counts inner links twice, as in C85, and here nothing asks for `MapPartToNet` (`GP.C87_refuted`); nodes with
  `inGroup == -1` read before the start of a table (`GP.C87_unassigned`).
- C89: `BuildNetFromGroupNeig` calls `RewireAdjacencyByNum` on soft links, whose `node` field is 0: all links end at the first node
  (`GR.C89_refuted`), and `IsThereNode`, which compares addresses, does not prevent repeated nodes.
- C92: with probabilities of the modules given, a dice of exactly 0 (which `gsl_rng_uniform` may return) leaves `teamcol = -1`, and `modSizes[-1]` is read.
  All links are created with weight 0, so strengths in the network are 0.
- C93: `utils/main_modularbipart.c` passes `modSize, modSize` for the range of team sizes; the argument for the team size is read and never used.
- C94: `ParticipationCoefficientBipart` divides by the squared number of team mates, which is 0 for a node alone in all its teams; `ParticipationCoefficient`
  (C61) treats the corresponding case. Groups numbered at or above the number of nodes, or -1, are written outside the array.
- C95: `MDGraphLayout` computes `nnod * nnod` as int (overflow above 46340 nodes) and divides by ten times the number of links, so a network without links converts infinity to int.
- C98: the cutoff of the charges is the mean of the width and the height of a box; in a wide and low drawing, nodes within the cutoff can be two boxes apart and do not repel each other.
  The force `Ke/(d^2+eps)` of the charges is not the gradient of their energy `Ke/sqrt(d^2+eps)`.
- C102: a layout of one node (or any layout in which all nodes end in line with an axis) divides 0 by 0.
- C103: `ArrangeComponents` measures distances to circles of components that have no position yet: `xce`, `yce` come from `malloc` and are read before they are written.
- C104: `PotentialEnergy3D` has `nbox = b * b` where `b * b * b` boxes exist.
- C107: `PartitionSampling` with `(int)(decorStep * thinning) = 0` returns copies of one partition; the link counters of the copies are doubled until `MapPartToNet`.
- C108: `NetReconstruct` uses pointers never assigned for networks without links and for complete networks; an exchange undone restores the link with weight 1; the five rejections in a row that end the loop are all of the same exchange.
- C109: the links made by `NetFromSBMScores` have weight 0, so all strengths are 0.
- C111: for the root of the tree, `tdelete` returns the root pointer itself, which may have been freed; only whether it is NULL is meaningful.
- C113: for a repeated label `MakeLabelDict` loses the new tree node (leak) and lets the dictionary point to the last node with that label.
- C114: in `GibbsStepKState` (and in the heat-bath samplers of src/multiblock.c, C68) the loop `while (cum < dice)` does not run for `dice == 0`, which
  `gsl_rng_uniform` can return, and `slg[-1]` is read (`RC.C114_zero`).
- C117, C118: isolated nodes cannot be represented in adjacency list files and are lost in a round trip (`GR.C117_isolated_lost`,
  `BP.C118_isolated_lost`); `%g` keeps six significant digits of the weights.
- C121: `BlockModel` type `p` prints half of the probability of a connection within a group (`GP.C121_probability_halved`), type `e` takes
  away only half of the expected fraction between groups (`GP.C121_excess_wrong`), and `4*links*links` overflows `int` for more than 23170
  links (`GP.C121_overflow`).
- C122: the functions that remove links by group go on from a list cell that `RemoveLink` has freed (`GP.C122_use_after_free`).
- C124: `MapPartToNetSoft` sets the counters of the groups to 0 (`GP.C124_counters_lost`) and dereferences NULL for a label that the
  network does not have (`GP.C124_subset_crashes`), both contrary to its comment; the dictionary of labels is not freed.
- C126: in a directed network `RemoveIsolatedNodes` frees nodes that have incoming links only; references to them dangle
  (`GR.C126_dangling`).
- C127: `#Average distance` is over all pairs, those without a path counted as 0.
- C128: `CalculateBiggestLinkBetweenness` inherits the weights of `CalculateLinkBetweenness` (C55); with several shortest paths the stored
  link need not be the one with the largest betweenness (`BT.C128_wrong_link`, 8 nodes).
- C130: the number of queries is the number of lines, blank ones included: blank lines repeat the last query (`RC.C130_blank_lines`).
- C131: both recommender programs check for one argument less than they use; without the seed they call `atoi(NULL)`
  (`RC.C131_seed_missing`).
- C132: the thermalisations of recommend.c and `LSThermalizeMCKState` compare means without `EPSILON`; at constant energy both sides are equal,
  the strict inequality fails for ever and the loop never ends (`WU.C132_strict_never_ends`), e.g. for decorrelation step 0
  (`WU.C132_recommender_hangs`).
- C133: `x1 = (nnod / 5) / 4` is 0 for networks of fewer than 20 nodes; the exponential is 1 there whatever its time, so an estimate is
  accepted only when one Monte Carlo step left the partition as it was (`WU.C133_small_networks`).
- C134: the warm-up of the samplers, left open in C29-C32, C50 and C105-C107, is modelled in Verif/Warm and shown to be one of the warm-ups
  allowed there.
- C135: pointers to nodes are indices in Verif/Graph; Verif/Heap models addresses, `calloc` and `free` and proves that this abstraction is sound
  for the construction and removal of networks.
- C137: `netcarto` ignores the value returned by `EdgeListFileInput`: after a malformed line it uses variables that have not been set. `-t` without `-b` numbers
  the second column apart but builds an ordinary network from the numbers. When the first round of the annealing finds the best clustering and no later round
  changes it (likely for small networks), `GeneralSA` leaves NULL and `CompressPartition` follows it; proved for the default options on a file with one link.
  `-m` and `-a` are accepted and have no effect.
- C138: the clustering printed by `netcarto` ends its lines with a tabulation and cannot be read by `netcarto -p`.
- C141: `gsl_eigen_symm` with the sort that follows is taken to return the exact eigenvalues, in increasing order, of the symmetric matrix whose lower triangle is the
  one given; this belongs to the trusted base. Rounding is not modelled.
- C142: `Synchronizability` of a network without links reads past the end of the vector of eigenvalues (`GR.C142_no_links`).
- C143, C144: a file that does not exist, or a line with fewer than two fields, crashes every program of utils (`UT.C143_crash`, `UT.C144_crash`): `fopen` and the
  network NULL are not checked.
- C146: `getgiant` crashes on an empty file (`UT.C146_empty`).
- C147: `netrandomize` asks for one argument but uses two (`atoi(NULL)`), and for a file without links it reads beyond its arrays (`UT.C147_crash`).
- C149: `netprop` prints `K_K2` with the mean squared degree rounded down (`UT.C149_ratio`); it writes beyond `components[1000]` for a network of more than 1000
  components, and it is undefined for a network without links (`UT.C149_crash`).
- C150: the nine programs that score links ask for one argument and use two: without the seed `atoi(NULL)` (`PG.C150_crash`). Usage paths of several of them end an `int main` by `return;` without a value.
- C151: `reliability_links_gibbs_sparse` is undefined for a network without links and for a complete network (`PG.C151_undefined`).
- C152: the multiblock and only_deg programs copy the name of the input file and a suffix to a buffer of 200 bytes (`PG.C152_long_name`).
- C154: `FCreatePartition` never ends when the last group of a file is not closed by `///`, and uses a label that was not set for a file without words; the three programs that call it check neither `argc` nor `fopen` (`PG.C154_crash`, `PG.C155_crash`).
- C155: a label of the groups that is not a node makes `MapPartToNet` follow NULL (`PG.C155_crash`); without a team of two members the modularity is not a number (`PG.C155_no_pairs`).
- C157: `reliability_links_k` asks for two arguments but uses the third (`PG.C157_crash`), and crashes for K < 1 (`PG.C157_no_ratings`).
- C158: `reliability_reconstruct` has no result for a network in which no pair or every pair is linked: `NetReconstruct` then uses pointers that were never set (`PG.C158_complete`).
- C159: the recommenders ask for two (three) arguments but use one more (`PG.C159_crash`); K < 1 is undefined behaviour. `multi_recommend_k` prints labels and scores of a query on two lines, `multi_recommend_k_gibbs` on one.
- C160: `conflict` computes the number of pairs as an `int` (`PG.C160_crash`).
- C162, C163: as in the plane (C102), a layout of one node divides 0 by 0.
- C163: `MDGraphLayout2Dp` may stop (energy below 1/100000 per node) before the spring towards the plane has been switched on for a single step, so the drawing may be a projection of a drawing in space (`C163_pull`: the strength is dt times the number of steps after the switch; the switch and the stop can be in the same step).
- C164: `netlayout` gives NaN when two linked labels start at the same place (`PG.C164_same_place`), and is undefined for a file without links or with more than 46340 labels, for which the square of the number of nodes overflows (`PG.C164_crash`). With method 3 (space) the third coordinate is never printed. With methods 2 and 3 the lines of progress go to the standard output, before the coordinates; with method 1 to the standard error.
- C104: `PotentialEnergy3D` leaves out every pair of charges outside the first plane of boxes (`LY.C104_energy_partial`).
- C166: `netcarto-legacy` without arguments asks for the name of the file and writes it over the pointer `netF`; without `-f` it follows a pointer that was never set, although the usage says that it reads the standard input (`PG.C166_crash`). The usage gives 0.97 as default cooling factor, the code has 0.995, and the summary names option `-S`, which is `-r`. With `-r 0` `randomized_mod.dat` has NaN; with `-r` at least 1 no run ends if no two links can be switched (`PG.C166_never_ends`). For a network without links the annealing never ends (NaN energy, final temperature 0).
- C167: `FPrintTabNodesBipart` ignores its argument `outf` and prints to the standard output (`BP.C167_wrong_file`). No program calls it.
- C168: `SBMStructureScore` divides by the standard deviation over the random networks, which is 0 for one repetition (`PG.C168_one`), and never ends when no two links can be switched (`PG.C168_never_ends`). No program calls it.
- C63: `ModularityBipartWeightedFast` does not double the sum over pairs as `ModularityBipartWeighted` does, so its matrix must hold the double of each term (`BP.C63_fast_agrees`); no code fills such a matrix.
- C147, C150, C157, C159, C160: programs that never end. `netrandomize` if no two links can be switched, e.g. for a star (`UT.C147_never_ends`); `reliability_links` and `reliability_links_k` with one label, `multi_recommend_2`, `multi_recommend_k` and `conflict` with one person and one thing: they look for another group when there is only one (`PG.C150_never_ends`, `PG.C157_never_ends`, `PG.C159_never_ends_2`, `PG.C159_never_ends_k`, `PG.C160_never_ends`); `multi_recommend_k_gibbs` with one person, one thing and the query for the pair: the energy is constant and the thermalization asks for a strict change (`PG.C159_never_ends_gibbs`).
- C170: `FreeLabelDict` (and `free_node_tree` of io.c) assumes that a node of a `tsearch` tree has the fields key, left and right. Recent versions of the GNU C library keep the colour of a node in the lowest bit of the left pointer, so a tree with a red node (any number of labels other than 2^n - 1, e.g. two) gives an odd pointer, which is read and freed (`TS.C170_crash`). It is called by graph.c, modules.c, bipartite.c and recommend.c. The layout of the GNU C library is taken on trust.
- C172 to C175: that the numbers of the generator are independent and uniform belongs to the trusted base; the theorems give the intervals of the numbers for each outcome and the algebra of the resulting probabilities. For one node (or one node in each set) the samplers never end (C29, C30, C150, C159).
- C180: with two linked nodes all divisions have the same energy, so every attempt of `LinkScoreMCStep` is accepted and the two nodes are together after every second attempt only (`LS.C180_alternates`, `LS.C180_two_refuted`): the chain has period 2 and its distribution does not converge. An even number of attempts between samples always shows the same division.
- C180: the recommender chooses the first set with probability (n1^2-1)/(n1^2+n2^2-2). Then a change of one node in the first set is proposed with probability (n1+1)/(n1(n1^2+n2^2-2)), so changes in the two sets are not equally likely unless the sets are equally large (`RC.C180_proposals`); equal chances would need n1(n1-1) and n2(n2-1). The stationary distribution does not depend on it (C175).
