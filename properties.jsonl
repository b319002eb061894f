{"id": "C01", "title": "Every history of partition edits keeps the partition consistent", "statement": "Starting from a freshly created partition whose nodes were dispatched by AssignNodesToModules, after any finite sequence of ChangeModule / MergeModules (distinct modules) / CompressPartition / CopyPartitionStruct calls with in-range arguments: walking a module from first along next terminates and lists exactly the nodes whose module field is that module, each once; walking back from last along prev gives the reverse; size is the number of nodes in it, strength the sum of their strengths, and nempty the number of modules with no node. No node is lost or duplicated, and no call dereferences NULL.", "quantifier": "all N, M, node strengths, all finite sequences of edit operations with in-range arguments", "why_tests_cant": "the state space of linked lists and histories is unbounded; a pointer slip shows only after particular head/tail/middle removals in particular orders", "anchors": ["src/movements.c:ChangeModule", "src/movements.c:MergeModules", "src/partition.c:CreatePartition", "src/partition.c:CopyPartitionStruct", "src/partition.c:CompressPartition", "src/fillpartitions.c:AssignNodesToModules"]}
{"id": "C02", "title": "dEChangeModule is the exact modularity change of a move", "statement": "For a consistent partition and a symmetric adjacency array without self loops or repeated neighbours, the value returned by dEChangeModule(i,H) equals PartitionModularity after ChangeModule(i,H) minus PartitionModularity before, for every node i and every module H different from its current one, with and without the diagonal term.", "quantifier": "all graphs, weights, partitions, nodes and target modules", "why_tests_cant": "an algebraic identity over all weighted graphs and partitions; tests only sample graphs, and rounding hides small systematic errors", "anchors": ["src/movements.c:dEChangeModule", "src/movements.c:ChangeModule", "src/partition.c:PartitionModularity"]}
{"id": "C03", "title": "dEMergeModules is the exact modularity change of a merge", "statement": "Under the same conditions, dEMergeModules(a,b) with a != b equals PartitionModularity after MergeModules(a,b) minus PartitionModularity before it (including when one module is empty), and it does not depend on the order of the two arguments.", "quantifier": "all graphs, weights, partitions and pairs of distinct modules", "why_tests_cant": "algebraic identity over all inputs, including the size comparison that decides which module is scanned", "anchors": ["src/movements.c:dEMergeModules", "src/movements.c:MergeModules", "src/partition.c:PartitionModularity"]}
{"id": "C04", "title": "PartitionModularity computes the documented double sum", "statement": "On a consistent partition PartitionModularity equals the sum over ordered pairs of distinct nodes in the same module of A_ij - k_i k_j, and with the diagonal switch the sum over all ordered pairs; the result depends only on the grouping (relabelling modules or reordering module lists does not change it).", "quantifier": "all graphs, weights and partitions, both values of the switch", "why_tests_cant": "equality of an iterated linked-list computation with a closed formula over all inputs", "anchors": ["src/partition.c:PartitionModularity"]}
{"id": "C05", "title": "Compression drops exactly the empty modules", "statement": "CompressPartition leaves no empty module, sets the module count to the number of non-empty modules, keeps modules consistent, and two nodes share a module afterwards exactly when they did before. When every module is empty the call must also be safe.", "quantifier": "all consistent partitions", "why_tests_cant": "depends on how empty slots and late non-empty modules interleave; there are exponentially many patterns", "anchors": ["src/partition.c:CompressPartition"]}
{"id": "C06", "title": "Adjacency array built from an edge list is that graph", "statement": "For an edge list without self loops with end points in range, EdgeListToAdjaArray fills, for each node, exactly one slot per incident edge holding the opposite end and the (normalised) weight; the stored matrix is symmetric; each node strength is the sum of its row; with normalisation all strengths add up to 1 when the total weight is not zero.", "quantifier": "all N, all edge lists and weights", "why_tests_cant": "slot positions are computed by counting down degrees; correctness is an invariant over all prefixes of all edge lists", "anchors": ["src/fillpartitions.c:EdgeListToAdjaArray", "src/partition.c:CreateAdjaArray"]}
{"id": "C07", "title": "Annealing bookkeeping: reported energy is the modularity reached", "statement": "In GeneralSA started from a partition p0, for every random stream and every acceptance rule, whenever the temperature loop is at a round boundary the running energy equals modularity(current partition) minus modularity(p0), the saved best energy equals the same quantity for the saved best partition, and all these partitions are consistent over the same nodes.", "quantifier": "all graphs, parameters, random streams, numbers of rounds", "why_tests_cant": "the random schedule is unbounded and covers moves, merges, splits, reverts and restarts", "anchors": ["src/sannealing.c:GeneralSA", "src/sannealing.c:SplitModuleSA", "src/movements.c:SplitModuleByComponent"]}
{"id": "C08", "title": "GeneralSA hands back a partition", "statement": "When GeneralSA returns 0 the caller's partition pointer refers to a consistent partition of the same nodes (never NULL), and its modularity is at least that of every partition current at an earlier round boundary.", "quantifier": "all graphs, parameters and random streams", "why_tests_cant": "depends on the interaction of no-change counting and best saving over whole runs", "anchors": ["src/sannealing.c:GeneralSA", "netcarto/main_netcarto.c:main"]}
{"id": "C09", "title": "Splitting a module touches only that module", "statement": "SplitModuleSA and SplitModuleByComponent (target non-empty, second module empty) only move nodes of the target into the empty module: afterwards the two modules together contain exactly the nodes of the original target, every other module is unchanged, and consistency is kept, for every random stream.", "quantifier": "all graphs, partitions, random streams, temperatures", "why_tests_cant": "random streams and annealing lengths are unbounded", "anchors": ["src/sannealing.c:SplitModuleSA", "src/movements.c:SplitModuleByComponent"]}
{"id": "C10", "title": "Component split follows the components of the induced subgraph", "statement": "SplitModuleByComponent returns the number of connected components of the subgraph induced by the target module, keeps each such component in one piece, and when there are at least two moves at least one of them to the empty module.", "quantifier": "all graphs, partitions and random streams", "why_tests_cant": "quantifies over all graphs; the failing shape needs two module nodes joined only through a node outside the module", "anchors": ["src/movements.c:SplitModuleByComponent"]}
{"id": "C11", "title": "Role metrics are well defined and bounded", "statement": "For non-negative weights PartitionRolesMetrics gives every node with positive strength a participation in [0,1) equal to 1 minus the sum over modules of (share of its strength towards the module) squared, 0 for isolated nodes; within each module the z-scores average to 0 and, unless all equal, have mean square 1; GetRole returns a value in 0..6, equal to 4 or more exactly when z >= 2.5, and monotone in P.", "quantifier": "all graphs with non-negative weights, all partitions, all (P,z)", "why_tests_cant": "inequalities over all real inputs", "anchors": ["src/partition.c:PartitionRolesMetrics", "src/partition.c:GetRole"]}
{"id": "C12", "title": "Bipartite projection array is the weighted co-membership graph", "statement": "ProjectBipartEdgeList produces an adjacency array whose entry for two distinct first-column nodes is fac1 times the sum over second-column nodes of the products of the two weights, symmetric, one slot per linked pair, and reads only memory it has written.", "quantifier": "all bipartite edge lists without repeated edges", "why_tests_cant": "out-of-bounds reads and the loss of the last edge depend on heap contents, invisible to tests that happen to see a different value there", "anchors": ["src/fillpartitions.c:ProjectBipartEdgeList", "src/fillpartitions.c:EdgeCompare"]}
{"id": "C13", "title": "Labels read from an edge list get stable identifiers", "statement": "EdgeListFileInput numbers labels by first appearance without gaps: identifiers are 0..N-1, equal labels (in the same column class) get equal identifiers, different labels different ones, labels[id] is the label, and the k-th edge joins the identifiers of the k-th line; a line with too few fields makes it return a non-zero code (further fields are ignored).", "quantifier": "all files (sequences of lines) with labels shorter than 100 bytes, unipartite and both bipartite modes, weighted or not", "why_tests_cant": "quantifies over all files; buffer growth and tree lookups happen at arbitrary positions", "anchors": ["src/io.c:EdgeListFileInput"]}
{"id": "C14", "title": "A clustering written to a file reads back as the same clustering", "statement": "Reading with AssignNodesToModulesFromFile what ClusteringOutput wrote groups two nodes together exactly when they were together in the written partition.", "quantifier": "all partitions and label arrays (labels without tab or newline, distinct)", "why_tests_cant": "a round trip over all partitions; a single-module test passes", "anchors": ["src/io.c:ClusteringOutput", "src/io.c:AssignNodesToModulesFromFile"]}
{"id": "C15", "title": "Link edits keep degree and strength queries right", "statement": "After any sequence of AddAdjacency, RemoveLink, NodeDegree and NodeStrength calls, NodeDegree(n) returns the current number of neighbours of n and NodeStrength(n) the current sum of its link weights, no node lists the same neighbour twice, and without self-link permission no node lists itself.", "quantifier": "all networks and all operation histories, including AddAdjacencySoft/rewiring as used by the network builders", "why_tests_cant": "cached values go stale only in particular interleavings of queries and edits", "anchors": ["src/graph.c:AddAdjacency", "src/graph.c:AddAdjacencySoft", "src/graph.c:RemoveLink", "src/graph.c:NodeDegree", "src/graph.c:NodeStrength"]}
{"id": "C16", "title": "FBuildNetwork builds the graph described by the file", "statement": "For every sequence of lines the network built has one node per distinct label in order of first appearance with consecutive numbers, a link from a to b exactly when some line says so (or its mirror when the symmetric switch is on), weight equal to the first weight (or to the sum of all weights when weights are added), and is symmetric when the symmetric switch is on.", "quantifier": "all files, all switch combinations", "why_tests_cant": "quantifies over all files; the interaction of switches with self links and repeated lines is combinatorial", "anchors": ["src/graph.c:FBuildNetwork", "src/graph.c:AddAdjacency", "src/graph.c:CreateNodeGraph"]}
{"id": "C17", "title": "Randomisation preserves every degree", "statement": "RandomizeSymmetricNetwork keeps, for every random stream, the node set, every node's degree, symmetry, the absence of self links and of repeated links.", "quantifier": "all symmetric simple networks, all random streams and iteration counts", "why_tests_cant": "an invariant over unboundedly many random swaps", "anchors": ["src/graph.c:RandomizeSymmetricNetwork"]}
{"id": "C18", "title": "Breadth-first layers are shortest-path distances", "statement": "Starting the breadth-first list at a node and expanding with RenewQueue until it stops growing, a node is in the list with distance d exactly when its shortest path distance from the start is d, and IsGraphConnected returns 1 exactly when every node is reached from the first node.", "quantifier": "all networks and start nodes", "why_tests_cant": "all graphs; depends on queue order and the visited marks", "anchors": ["src/graph.c:RenewQueue", "src/graph.c:EnqueueAdjaList", "src/graph.c:Enqueue", "src/graph.c:IsGraphConnected"]}
{"id": "C19", "title": "IsThereNode answers membership by label", "statement": "IsThereNode(label, net) returns 1 exactly when some node of the network has that label, wherever the label string is stored.", "quantifier": "all networks and label strings", "why_tests_cant": "string literals compared in tests are often pooled, so a pointer comparison passes", "anchors": ["src/graph.c:IsThereNode"]}
{"id": "C20", "title": "Second moment of the degree", "statement": "AverageSquaredDegree returns the mean of the squared degrees.", "quantifier": "all networks", "why_tests_cant": "integer truncation is invisible when the sum happens to be divisible by the node count", "anchors": ["src/graph.c:AverageSquaredDegree"]}
{"id": "C21", "title": "Clustering and similarity indices stay in [0,1]", "statement": "ClusteringCoefficient, OneNodeClusteringCoefficient, JaccardIndex and TopologicalOverlap of a symmetric simple network are in [0,1] whenever they are defined, Jaccard is symmetric, and the per-node coefficient equals links among neighbours over neighbour pairs.", "quantifier": "all symmetric simple networks", "why_tests_cant": "bounds over all graphs", "anchors": ["src/graph.c:ClusteringCoefficient", "src/graph.c:OneNodeClusteringCoefficient", "src/graph.c:JaccardIndex", "src/graph.c:TopologicalOverlap", "src/graph.c:SumCommonLinks"]}
{"id": "C22", "title": "Largest weakly connected set is a component", "statement": "GetLargestWeaklyConnectedSet returns a node set closed under links in both directions.", "quantifier": "all directed networks", "why_tests_cant": "needs particular node orders and link directions to fail", "anchors": ["src/graph.c:GetLargestWeaklyConnectedSet"]}
{"id": "C23", "title": "Group link counters equal a recount after any history", "statement": "After any sequence of AddNodeToGroup, RemoveNodeFromGroup, MoveNode and MergeGroups on a symmetric network without self links, every group's size, total, inner and outer link counts (and weighted versions) equal what recounting from the group's members gives (what MapPartToNet computes).", "quantifier": "all networks, partitions and operation histories", "why_tests_cant": "incremental counters drift only along particular histories", "anchors": ["src/modules.c:AddNodeToGroup", "src/modules.c:RemoveNodeFromGroup", "src/modules.c:MoveNode", "src/modules.c:MergeGroups", "src/modules.c:MapPartToNet"]}
{"id": "C24", "title": "Module identification uses exact modularity differences", "statement": "In SACommunityIdent the energy change used to accept a node move or a merge equals Modularity after minus before.", "quantifier": "all networks, partitions, moves and merges", "why_tests_cant": "algebraic identity over all inputs", "anchors": ["src/modules.c:SACommunityIdent", "src/modules.c:Modularity"]}
{"id": "C25", "title": "Partition files round trip", "statement": "FCreatePartition applied to what FPrintPartition (list mode) wrote gives the same groups with the same labels in the same order.", "quantifier": "all partitions with at least one group, non-empty groups, labels free of white space and different from the separator", "why_tests_cant": "round trip over all partitions", "anchors": ["src/modules.c:FPrintPartition", "src/modules.c:FCreatePartition"]}
{"id": "C26", "title": "Mutual information is a normalised symmetric overlap", "statement": "MutualInformation of two partitions of the same nodes is symmetric, equals 1 for a partition against itself whenever that partition has at least two non-empty groups, and lies in [0,1].", "quantifier": "all pairs of partitions of the same nodes, at least one of them with two non-empty groups, of at most 46340 nodes (beyond that an int product overflows)", "why_tests_cant": "inequality over all partitions (needs concavity)", "anchors": ["src/modules.c:MutualInformation"]}
{"id": "C27", "title": "Fraction of correctly classified nodes", "statement": "CorrectlyClassified of a partition against itself is 1.", "quantifier": "all partitions", "why_tests_cant": "a normalisation slip that scales every result needs the exact count, not a monotone trend", "anchors": ["src/modules.c:CorrectlyClassified"]}
{"id": "C28", "title": "Cluster partition is the partition into connected components", "statement": "ClustersPartition puts two nodes of a symmetric network into the same group exactly when they are joined by a path, and every node is in exactly one group.", "quantifier": "all symmetric networks", "why_tests_cant": "all graphs, traversal orders", "anchors": ["src/modules.c:ClustersPartition"]}
{"id": "C29", "title": "Link-score sampler keeps energy and link counts exact", "statement": "During LinkScoreMCStep, for every random stream and acceptance rule, the running energy equals PartitionH of the current partition (given it did at the start) and the group-to-group matrix equals the true link counts.", "quantifier": "all symmetric simple networks, partitions, random streams, step counts, initial contents of the scratch array", "why_tests_cant": "incremental energy over unbounded random histories; depends on uninitialised scratch memory", "anchors": ["src/missing.c:LinkScoreMCStep", "src/missing.c:PartitionH", "src/missing.c:LinkScore"]}
{"id": "C30", "title": "K-state sampler: accepted moves keep counts and energy exact, rejected moves change nothing", "statement": "During LSMCStepKState the node-to-group and group-to-group rating counts equal recounts, ng is the number of non-empty groups, the running energy equals LSHKState, and a rejected move restores all of them exactly.", "quantifier": "all networks with ratings in 0..K-1, partitions, random streams", "why_tests_cant": "tentative update and undo over unbounded histories", "anchors": ["src/missing.c:LSMCStepKState", "src/missing.c:LSHKState"]}
{"id": "C31", "title": "Link scores are symmetric probabilities", "statement": "LinkScore returns a symmetric matrix whose off-diagonal entries lie strictly between 0 and 1 and equal the average over the sampled partitions of (l+1)/(r+2), l and r being the links and pairs between the two groups; the diagonal is 0.", "quantifier": "all symmetric simple networks with at least 2 nodes, all sequences of sampled partitions, nIter >= 1", "why_tests_cant": "must hold for every random run", "anchors": ["src/missing.c:LinkScore", "src/missing.c:GibbsLinkScore"]}
{"id": "C32", "title": "K-state scores are a probability distribution per query", "statement": "For every query pair the K scores returned by LSMultiLinkScoreKState are positive and sum to 1.", "quantifier": "all networks, runs, K >= 1, nIter >= 1, including runs that are restarted", "why_tests_cant": "must hold for every random run including restarts", "anchors": ["src/missing.c:LSMultiLinkScoreKState"]}
{"id": "C33", "title": "Gibbs sampler is defined on every state it can reach", "statement": "GibbsLinkScoreStep never reads an uninitialised variable or outside its arrays, whatever the current partition and the random numbers in [0,1).", "quantifier": "all partitions, all random numbers in [0,1)", "why_tests_cant": "the bad draws (exactly 0) and bad states (all nodes in one group) have tiny or data-dependent probability", "anchors": ["src/missing.c:GibbsLinkScoreStep", "src/sparse_missing.c:SparseGibbsLinkScoreStep"]}
{"id": "C34", "title": "Two-state recommender keeps counts and energy exact", "statement": "During MCStep2State on a bipartite network with ratings 0/1 all eight count matrices equal recounts, both group counts are right, the running energy equals H2State, and rejected moves restore everything.", "quantifier": "all bipartite rating networks, partitions, random streams", "why_tests_cant": "tentative update and undo over unbounded histories on two coupled partitions", "anchors": ["src/recommend.c:MCStep2State", "src/recommend.c:H2State"]}
{"id": "C35", "title": "The list of unobserved pairs is complete and fits its allocation", "statement": "BuildUnobservedSet fills exactly CountUnobserved slots, one per (first set, second set) pair without a link.", "quantifier": "all bipartite networks", "why_tests_cant": "heap overflow or trailing NULLs depend on link counts matching pair counts for all networks", "anchors": ["src/recommend.c:BuildUnobservedSet", "src/recommend.c:CountUnobserved", "src/bipartite.c:NLinksBipart"]}
{"id": "C36", "title": "Bipartite randomisation preserves degrees", "statement": "RandomizeBipart keeps for every random stream every node's degree on both sides, mirror symmetry of the links and the absence of repeated links.", "quantifier": "all bipartite simple networks, random streams, iteration counts", "why_tests_cant": "invariant over unboundedly many random swaps", "anchors": ["src/bipartite.c:RandomizeBipart"]}
{"id": "C37", "title": "Projection weight is the number of shared neighbours", "statement": "ProjectBipart gives a symmetric one-mode network with the same labels in the same order where two nodes are linked exactly when they share a neighbour, with weight the number of shared neighbours; ProjectBipartWeighted likewise with the sum of weight products.", "quantifier": "all bipartite networks", "why_tests_cant": "truncation of fractional sums is invisible for integer weights", "anchors": ["src/bipartite.c:ProjectBipart", "src/bipartite.c:ProjectBipartWeighted", "src/bipartite.c:NCommonLinksBipart", "src/bipartite.c:SumProductsOfCommonWeightsBipart"]}
{"id": "C38", "title": "Stack is last-in first-out and queue is first-in first-out", "statement": "For every sequence of operations the linked stack and queue return exactly what a list used as LIFO / FIFO returns, report the right length, and return NULL on an empty container.", "quantifier": "all operation sequences", "why_tests_cant": "the dangling tail pointer of an emptied queue matters only in particular histories", "anchors": ["src/datastruct.c:stack_push", "src/datastruct.c:stack_pop", "src/datastruct.c:queue_enqueue", "src/datastruct.c:queue_dequeue"]}
{"id": "C39", "title": "Choose is the binomial coefficient", "statement": "Choose(n,k) equals n!/(k!(n-k)!) for all 0 <= k <= n (in exact arithmetic), and LogChoose / FastLogChoose return its logarithm, with the memo table transparent: the answer never depends on which entries were asked before.", "quantifier": "all n, k, all query histories, all table sizes", "why_tests_cant": "memo tables are history dependent; the multiplicative formula is an identity over all n, k", "anchors": ["src/tools.c:Choose", "src/tools.c:LogChoose", "src/tools.c:FastLogChoose", "src/tools.c:InitializeFastLogChoose"]}
{"id": "C40", "title": "Laplacian rows sum to zero", "statement": "For a symmetric simple network LaplacianMat is symmetric, has the degree on the diagonal, and every row sums to zero.", "quantifier": "all symmetric simple networks", "why_tests_cant": "matrix identity for all graphs; the in-place negation visits both triangles", "anchors": ["src/matrix.c:LaplacianMat", "src/matrix.c:AdjacencyMat"]}
{"id": "C41", "title": "Sample statistics are the textbook ones", "statement": "mean returns the average of the N values, stddev the population standard deviation (its square is the mean squared deviation), max and min the extreme values of the array, whatever their order and sign.", "quantifier": "all arrays of N >= 1 numbers", "why_tests_cant": "closed forms over arrays of any length; running maxima start from the first element only if written right", "anchors": ["src/tools.c:mean", "src/tools.c:stddev", "src/tools.c:max", "src/tools.c:min"]}
{"id": "C42", "title": "fact is the factorial inside its range", "statement": "fact(a) returns a! exactly for 0 <= a <= 20; outside this range no meaningful answer exists (overflow from 21, no return for negative arguments).", "quantifier": "all integers a", "why_tests_cant": "the overflow boundary of a recursive function is a statement about all arguments", "anchors": ["src/tools.c:fact"]}
{"id": "C43", "title": "CountLinesInFile counts lines", "statement": "CountLinesInFile returns the number of lines of the file, whatever their lengths.", "quantifier": "all files", "why_tests_cant": "buffer-size dependent behaviour shows only on lines longer than the buffer", "anchors": ["src/tools.c:CountLinesInFile"]}
{"id": "C44", "title": "CopyNetwork is a faithful copy", "statement": "CopyNetwork returns a network with the same labels in the same order and exactly the same links and weights as the original, sharing no node with it.", "quantifier": "all networks with distinct labels", "why_tests_cant": "links are re-created through labels; the copy depends on the label dictionary of the whole network", "anchors": ["src/graph.c:CopyNetwork", "src/graph.c:RewireAdjacencyByLabel"]}
{"id": "C45", "title": "TotalNLinks and AverageDegree count links", "statement": "TotalNLinks(net,1) is the number of unordered linked pairs and TotalNLinks(net,0) the number of ordered ones; AverageDegree is the corresponding mean.", "quantifier": "all networks", "why_tests_cant": "a counting identity over all networks; halving breaks for self links", "anchors": ["src/graph.c:TotalNLinks", "src/graph.c:AverageDegree"]}
{"id": "C46", "title": "Path length averages", "statement": "AveragePathLength of a network where every node reaches every other is the mean shortest-path distance over ordered pairs of different nodes, and -1 otherwise; AverageInverseDistance is the mean inverse distance with 0 for unreachable pairs.", "quantifier": "all networks of up to 10000 nodes", "why_tests_cant": "an average over all pairs of exact distances; the histogram has a fixed size", "anchors": ["src/graph.c:AveragePathLength", "src/graph.c:AverageInverseDistance"]}
{"id": "C47", "title": "SAGroupSplit divides a group in two", "statement": "SAGroupSplit returns exactly two groups that together hold each node of the target group once, whatever the random numbers.", "quantifier": "all networks, groups, temperatures and random streams", "why_tests_cant": "random merging of clusters picks groups by ceil(u*n), whose extreme values are practically never drawn in tests", "anchors": ["src/modules.c:SAGroupSplit", "src/modules.c:BuildNetFromGroup"]}
{"id": "C48", "title": "SACommunityIdent keeps exact books and returns a division of the nodes", "statement": "SACommunityIdent returns non-empty groups dividing the nodes; the energy accumulated over all moves, merges, splits and restarts is exactly the Modularity of the returned partition, and when the run stops for lack of change it is within the tolerance of the best modularity seen.", "quantifier": "all networks with links, settings and random streams", "why_tests_cant": "an invariant over whole randomised runs with collective moves and restarts", "anchors": ["src/modules.c:SACommunityIdent", "src/modules.c:CopyPartition", "src/modules.c:MapPartToNet"]}
{"id": "C49", "title": "K-state recommender keeps counts and energy exact", "statement": "During MCStepKState on a bipartite network with ratings 0..K-1 all count matrices equal recounts in both directions, both numbers of non-empty groups are right, the running energy equals HKState, and a rejected move restores everything.", "quantifier": "all bipartite networks with ratings 0..K-1, partitions, acceptance rules and random streams", "why_tests_cant": "tentative update and undo over unbounded histories on two coupled partitions", "anchors": ["src/recommend.c:MCStepKState", "src/recommend.c:HKState"]}
{"id": "C50", "title": "Recommender scores are averages of held-out estimates", "statement": "MultiLinkScoreKState and MultiLinkScore2State return for each query the mean over nIter sampled pairs of partitions of (n_k+1)/(n+K), with counts that leave out the ratings of all queried pairs; so scores are positive, sum to one over the K ratings, and do not depend on whether or how the queried pairs were rated.", "quantifier": "all rating networks, query lists (also with repetitions), warm-ups, restarts and random streams", "why_tests_cant": "a relation between two runs on different inputs, over all random streams", "anchors": ["src/recommend.c:MultiLinkScoreKState", "src/recommend.c:MultiLinkScore2State"]}
{"id": "C51", "title": "Copy of a bipartite network", "statement": "CopyBipart returns a network with the same sizes, the same neighbour lists in the first set and the same neighbours with the same weights in the second, both ends of each link agreeing.", "quantifier": "all bipartite networks with distinct labels in each set and no repeated links", "why_tests_cant": "equality of structures built by dictionary look-ups, for all networks", "anchors": ["src/bipartite.c:CopyBipart"]}
{"id": "C52", "title": "Removing one rating value", "statement": "RemoveRatings deletes exactly the links with the given rating, on both sides, keeps the others in order, and never reads through a deleted or NULL link.", "quantifier": "all bipartite networks and ratings", "why_tests_cant": "links are removed from the list being walked", "anchors": ["src/recommend.c:RemoveRatings", "src/graph.c:RemoveLink"]}
{"id": "C53", "title": "A partition file with one line per group reads as those groups", "statement": "FReadPartition on a file with one line for each group, its labels separated by single tabs, gives the groups of the file in their order with their labels in order, and after them one more group that is empty.", "quantifier": "all lists of non-empty groups of labels that are shorter than 100 bytes and contain no tab or newline", "why_tests_cant": "quantifies over all files; the separator buffer holds a single character, which a sample of files does not show", "anchors": ["src/modules.c:FReadPartition"]}
{"id": "C54", "title": "Node betweenness is the sum of shares of shortest paths", "statement": "CalculateNodeBetweenness leaves in every node v the sum, over all ordered pairs (s,t) of other nodes, of the number of shortest paths from s to t through v divided by the number of all shortest paths from s to t (0 for pairs that are not connected), and always ends, provided no pair has more than INT_MAX shortest paths.", "quantifier": "all networks, directed or not, connected or not, without repeated links", "why_tests_cant": "Brandes' accumulation is indirect: path counts and back-propagated dependencies only agree with the definition by an argument about all shortest paths; tests compare with a handful of graphs.", "anchors": ["src/graph.c:2246-2328", "src/datastruct.c"]}
{"id": "C55", "title": "Link betweenness", "statement": "CalculateLinkBetweenness gives every link of a symmetric network the number of shortest paths (each pair of nodes with total weight 1, in both directions) along it; both directions of a link get the same value and the values of all links add up to twice the sum of all distances.", "quantifier": "all symmetric networks without repeated links", "why_tests_cant": "The even division among predecessors agrees with the definition on trees and many small graphs and differs only when predecessors have different numbers of paths; the conservation law ranges over all networks.", "anchors": ["src/graph.c:2055-2141", "src/graph.c:1066-1122"]}
{"id": "C56", "title": "Reported modularity is Newman's formula", "statement": "Modularity returns 1/2L sum_ij (A_ij - k_i k_j / 2L) over pairs in the same group, and ModularityWeight the same with weights and strengths, and the latter divides by zero exactly if the weights add up to zero.", "quantifier": "all simple networks and partitions of all their nodes whose counters are exact (C23)", "why_tests_cant": "identity between counters kept incrementally and a global double sum; all networks, all divisions, all weights", "anchors": ["src/modules.c:Modularity", "src/modules.c:ModularityWeight"]}
{"id": "C57", "title": "Random networks are simple and link exactly the pairs drawn", "statement": "EmptyGraph(S) has S nodes labelled 1..S and no links. ERGraph(S, p) and UndirectedBlockGraph use one random number for each pair of nodes and link two different nodes, in both directions and once, exactly if the number of the pair is below the probability of the pair (p, or the matrix entry of their two blocks); no other links, no self-links.", "quantifier": "All sizes up to INT_MAX, all probabilities, all block sizes and matrices, all sequences of random numbers in [0,1).", "why_tests_cant": "A statement on every sequence of random numbers; a test sees one seed and can check only averages.", "anchors": ["src/models.c:EmptyGraph", "src/models.c:ERGraph", "src/models.c:UndirectedBlockGraph"]}
{"id": "C58", "title": "The Girvan-Newman benchmark has the degrees asked for", "statement": "GirvanNewmanGraph(ngroup, gsize, kin, kout) links two nodes of the same group exactly if their random number is below kin/(gsize-1), and two nodes of different groups exactly if it is below kout/(gsize*(ngroup-1)); the probabilities of the pairs of a node add up to kin inside its group and to kout outside; no entry of the matrix that was not filled, and no quotient by zero, is used.", "quantifier": "All numbers and sizes of groups, all kin and kout, all sequences of random numbers.", "why_tests_cant": "Only the upper triangle of the matrix is filled; that the lower one is never read, and the expected degrees, are statements about all pairs and all sizes.", "anchors": ["src/models.c:GirvanNewmanGraph", "src/models.c:UndirectedBlockGraph"]}
{"id": "C59", "title": "Preferential attachment gives every new node m links", "statement": "PAGraph(S, m) stays inside its buffers and returns a simple undirected network of S nodes whose first m nodes are completely linked and in which every later node is linked to exactly m older nodes.", "quantifier": "All m and S, all sequences of random numbers.", "why_tests_cant": "A node that draws itself loses a link silently; a test on one seed that looks at sizes does not see it.", "anchors": ["src/models.c:PAGraph"]}
{"id": "C60", "title": "ModularityBipart is the bipartite modularity", "statement": "For a partition of the first set of a bipartite network, ModularityBipart is the sum over ordered pairs of different nodes of the same module of c_ij / sum_a m_a(m_a-1) - t_i t_j / (sum_a m_a)^2, with c_ij the number of common neighbours, t and m the degrees of the two sides. The value is in [-1, 1], is 0 if each module has one node, and is sum t^2/(sum t)^2 if all nodes are in one module.", "quantifier": "All bipartite networks with degrees for which the products of degrees fit the integer types and in which some node of the second set has two links; all partitions.", "why_tests_cant": "The code visits unordered pairs in list order and doubles; equality with the formula for every partition and the bounds are universal statements.", "anchors": ["src/bipartite.c:ModularityBipart"]}
{"id": "C61", "title": "Participation coefficients and within-module scores follow their definitions", "statement": "ParticipationCoefficient is 1 - sum_g (k_g/k)^2 over all modules (0 without links), in [0, 1-1/m]; WeightedParticipationCoefficient is the same with strengths; WithinModuleRelativeDegree and ...Strength are the standard scores of the links (weights) to the own module among its nodes: scores of a module add up to 0, their squares to the number of nodes, and all are 0 if all values agree.", "quantifier": "All simple networks and partitions with consistent counters; degrees up to 46340; strengths not 0.", "why_tests_cant": "The code adds one term per neighbour instead of one per module, and computes the variance from two moments; agreement with the definitions is a statement on all networks.", "anchors": ["src/modules.c:ParticipationCoefficient", "src/modules.c:WeightedParticipationCoefficient", "src/modules.c:WithinModuleRelativeDegree", "src/modules.c:WithinModuleRelativeStrength"]}
{"id": "C62", "title": "The role partition puts every node in its role", "statement": "CatalogRoleIdent and CatalogRoleIdentStrength return a partition into seven groups, mapped to the network with right sizes, link counts and strengths, in which each node is in the group of the role that the role table gives to its participation coefficient and within-module score in the partition passed, whatever the network was mapped to before.", "quantifier": "All simple networks, all partitions of all nodes; degrees up to 46340, or strengths not 0 for linked nodes.", "why_tests_cant": "The function remaps the network twice and fills seven groups node by node; every network and partition is concerned.", "anchors": ["src/modules.c:CatalogRoleIdent", "src/modules.c:CatalogRoleIdentStrength", "src/modules.c:AddNodeToGroupSoft", "src/modules.c:MapPartToNet"]}
{"id": "C63", "title": "ModularityBipartWeighted is a normalised weighted bipartite modularity", "statement": "ModularityBipartWeighted is the weighted analogue of the bipartite modularity: it agrees with ModularityBipart when all weights are 1, and its values do not exceed 1.", "quantifier": "All weighted bipartite networks with positive weights and all partitions.", "why_tests_cant": "The normalisation is right only for particular weights; tests with unit weights pass.", "anchors": ["src/bipartite.c:ModularityBipartWeighted"]}
{"id": "C64", "title": "Multi-layer samplers: exact energies and scores", "statement": "Whenever LinkScoreMB, ORLinkScoreMB, GibbsLinkScoreMB or ORGibbsLinkScoreMB returns, it has sampled the requested number of partitions; in each sample the link counts between groups are exact and the running energy is the energy of the AND (OR) two-layer block model for the current partition (for the first two up to one constant for the whole run outside debug mode); the score of two nodes is the average over the samples of the probability that one more pair of their groups is linked; scores are symmetric and strictly between 0 and 1; the diagonal is 0 (AND) or 1 (OR).", "quantifier": "All simple networks, all parameters, all sequences of random numbers, any content of uninitialised scratch arrays, any acceptance rule.", "why_tests_cant": "The energy is updated incrementally over long random runs; equality with the energy of the model in every reachable state is a statement on all runs.", "anchors": ["src/multiblock.c:LinkScoreMB", "src/multiblock.c:ORLinkScoreMB", "src/multiblock.c:GibbsLinkScoreMB", "src/multiblock.c:ORGibbsLinkScoreMB", "src/multiblock.c:LSMCStepMB", "src/multiblock.c:GibbsLinkScoreStepMB"]}
{"id": "C65", "title": "The table of harmonic numbers is long enough", "statement": "The functions of src/multiblock.c never read outside the table of harmonic numbers they allocate, and the samplers return for every sequence of random numbers.", "quantifier": "All simple networks, all partitions and all runs.", "why_tests_cant": "An index past the end of the table is hit only for partitions that random runs reach rarely on large networks, and reading past the end of the block may go unnoticed.", "anchors": ["src/multiblock.c:PartitionHMB", "src/multiblock.c:LSMCStepMB", "src/multiblock.c:LinkScoreMB", "src/multiblock.c:ORLinkScoreMB", "src/multiblock.c:GibbsLinkScoreStepMB", "src/tools.c:InitializeHarmonicList"]}
{"id": "C66", "title": "Block terms are marginal likelihoods and scores are predictive probabilities", "statement": "The term of a pair of groups with r node pairs and l links is minus the logarithm of the probability of the links when link probabilities are uniform: one layer (src/missing.c, src/only_deg.c), links present in both of two layers (AND), links present in at least one (OR). The score is the conditional probability that one more pair is linked (for the sums of the OR version: not linked).", "quantifier": "All r and l with 0 <= l <= r for which the table is long enough.", "why_tests_cant": "The formulas with binomials and harmonic numbers equal integrals over the priors; tests compare numbers for a few values.", "anchors": ["src/multiblock.c:PartitionHMB", "src/multiblock.c:ORPartitionHMB", "src/multiblock.c:LinkScoreMB", "src/multiblock.c:ORLinkScoreMB", "src/only_deg.c:LinkScoreMB_OD", "src/tools.c:InitializeHarmonicList"]}
{"id": "C67", "title": "The penalty for the number of groups never decreases", "statement": "LogDegeneracy is defined for every number of groups, is not negative, and does not decrease with the number of groups, also where the table ends and the asymptotic formula starts.", "quantifier": "All numbers of groups.", "why_tests_cant": "Monotonicity across the seam between the table and the formula and beyond is a statement on infinitely many values.", "anchors": ["src/multiblock.c:LogDegeneracy", "src/only_deg.c:LogDegeneracy_OD"]}
{"id": "C68", "title": "The one-layer versions of src/only_deg.c sample with the right energy", "statement": "LinkScoreMB_OD and GibbsLinkScoreMB_OD keep the exact one-layer energy of the current partition and return averages of predictive probabilities.", "quantifier": "All simple networks, all parameters, all sequences of random numbers.", "why_tests_cant": "The running energy is only printed; an offset made at the start persists in every run.", "anchors": ["src/only_deg.c:LinkScoreMB_OD", "src/only_deg.c:GibbsLinkScoreMB_OD", "src/only_deg.c:PartitionHMB_OD", "src/only_deg.c:LSMCStepMB_OD", "src/only_deg.c:GibbsLinkScoreStepMB_OD"]}
{"id": "C69", "title": "Sparse block model: exact energies and predictive scores", "statement": "SparseGibbsLinkScore gives link probabilities a Beta prior whose mean is the fraction of linked pairs of the network. SparsePartitionH is minus the logarithm of the probability of the network given the partition under this prior (and the count of labellings), up to a constant that depends on the network only. Whenever SparseGibbsLinkScore returns, it has sampled the requested number of partitions, in each the link counts between groups are exact and the running energy is the energy of the current partition; the score of two nodes is the average over the samples of the probability that one more pair of their groups is linked; scores are symmetric and strictly between 0 and 1, the diagonal is 0.", "quantifier": "All simple networks with some but not all pairs linked, all numbers of samples and thermalisation steps, all sequences of random numbers, any content of uninitialised scratch arrays.", "why_tests_cant": "Equality of incrementally updated sums of log-Gamma values with minus the logarithm of an integral in every reachable state.", "anchors": ["src/sparse_missing.c:SparseGibbsLinkScore", "src/sparse_missing.c:SparseGibbsLinkScoreStep", "src/sparse_missing.c:SparsePartitionH", "src/tools.c:FastLogGamma"]}
{"id": "C70", "title": "Sparse block model: defined for every network and run", "statement": "SparseGibbsLinkScore is defined for every network with at least one node and every sequence of random numbers: no division by zero, no logarithm of Gamma at 0, no unset variable, no index outside an array.", "quantifier": "All simple networks, all sequences of random numbers.", "why_tests_cant": "The failing runs need special networks (no links, all links) or rare random events (one group left, a draw of exactly 0).", "anchors": ["src/sparse_missing.c:SparseGibbsLinkScore", "src/sparse_missing.c:SparseGibbsLinkScoreStep"]}
{"id": "C71", "title": "The sum of two networks is their union", "statement": "AddTwoNetworks returns a network whose nodes are the nodes of the first network, with the same numbers, followed by the nodes of the second one whose labels the first one does not have, each label once. By labels, its links are exactly the links of the first network, with their weights, and the links that only the second one has; each link is listed once. Up to weights and numbering the result does not depend on the order of the arguments.", "quantifier": "All pairs of networks with distinct labels, directed or not, with or without self links, with arbitrary weights and any overlap of labels.", "why_tests_cant": "A statement about all pairs of networks and all label overlaps; the result is built through two dictionaries and a copy.", "anchors": ["src/graph.c:AddTwoNetworks", "src/graph.c:CopyNetwork", "src/graph.c:MakeLabelDict"]}
{"id": "C72", "title": "The sum of two networks keeps weights", "statement": "Every link of the network returned by AddTwoNetworks has the weight it has in one of the two networks, or the sum of its weights in both.", "quantifier": "All pairs of networks with distinct labels and arbitrary weights.", "why_tests_cant": "Tests on unweighted networks, where all weights are 1, cannot see which weight is used.", "anchors": ["src/graph.c:AddTwoNetworks"]}
{"id": "C73", "title": "Overlap of two networks", "statement": "CompareTwoNetworks returns the numbers of node labels of each network and of common labels, the numbers of links of each network between common nodes and of links common to both, and the corresponding conditional frequencies, which lie between 0 and 1 (NaN when the condition is never met).", "quantifier": "All pairs of undirected networks without self links and with distinct labels, any overlap of labels, any numbering.", "why_tests_cant": "The links are counted through dictionaries in both directions and halved; correctness for all overlaps and numberings cannot be enumerated.", "anchors": ["src/graph.c:CompareTwoNetworks", "src/graph.c:GetNodeDict"]}
{"id": "C74", "title": "Removal of random links", "statement": "RemoveRandomLinks(net, k, sym) does nothing undefined and, when it returns, exactly k different links have been removed (in both directions for undirected networks), all others keep their weights, labels and nodes are unchanged and later degree and strength queries are right; every set of k links is removed for some random stream; if there are fewer than k links it never returns.", "quantifier": "All directed networks, all undirected networks without self links, with at least one link; all k; all sequences of random numbers.", "why_tests_cant": "The walk deletes elements of the lists it walks along and must keep its counter aligned with marks made before; depends on all networks and random streams.", "anchors": ["src/graph.c:RemoveRandomLinks", "src/graph.c:RemoveLink", "src/graph.c:TotalNLinks"]}
{"id": "C75", "title": "Addition of random links", "statement": "AddRandomLinks(net, k, sym) adds exactly k new links (directed ones, or undirected ones if sym is set), of weight 1, none of them a self link, and leaves the other links as they are.", "quantifier": "All networks with at least one node, both values of sym, all k, all sequences of random numbers.", "why_tests_cant": "Depends on all networks and random streams; the switch for directed networks is accepted silently.", "anchors": ["src/graph.c:AddRandomLinks"]}
{"id": "C76", "title": "Assortativity is a correlation coefficient", "statement": "Assortativity returns Pearson's correlation coefficient between the degrees at the two ends of a link, a number between -1 and 1; it is NaN exactly when the ends of all links have the same degree or there is no link. Its integer sums overflow exactly when twice the sum of the cubes of the degrees exceeds INT_MAX, in particular as soon as a node has 1024 neighbours.", "quantifier": "All undirected networks without repeated links, with or without self links.", "why_tests_cant": "An identity between a formula in raw sums and a correlation coefficient over all networks; the overflow appears only with hubs larger than in test networks.", "anchors": ["src/graph.c:Assortativity", "src/graph.c:NodeDegree"]}
{"id": "C77", "title": "Degrees of neighbours and common neighbours", "statement": "CalculateKnn returns the mean degree of the neighbours of a node (NaN without neighbours); weighted with the degrees these means add up to the sum of the squared degrees. CommonNeighbors returns the number of nodes linked with both nodes, and does not depend on their order.", "quantifier": "All undirected networks without repeated links, all nodes.", "why_tests_cant": "Identities over all networks.", "anchors": ["src/graph.c:CalculateKnn", "src/graph.c:CommonNeighbors"]}
{"id": "C78", "title": "Transitivity counts triangles and triples", "statement": "ClusteringCoefficient2 returns three times the number of triangles divided by the number of connected triples, a number between 0 and 1 (NaN when there is no connected triple); its sums overflow exactly when twice the number of connected triples exceeds INT_MAX.", "quantifier": "All undirected networks without self links or repeated links.", "why_tests_cant": "A counting identity over all networks (each triangle is found six times, from its three corners).", "anchors": ["src/graph.c:ClusteringCoefficient2", "src/graph.c:CalculateLinksBetweenNeig"]}
{"id": "C79", "title": "Square clustering of a network", "statement": "SquareClustering returns the mean, over the nodes with two neighbours or more and with second neighbours, of the fraction of the pairs of neighbours and second neighbours where the second neighbour is linked with both, a number between 0 and 1.", "quantifier": "All undirected networks of two nodes or more without self links or repeated links.", "why_tests_cant": "The function relies on the order of a search list and on predecessor counts; the failure for networks that are not connected is a NULL dereference.", "anchors": ["src/graph.c:SquareClustering", "src/graph.c:CountPredecessors", "src/graph.c:RenewQueue"]}
{"id": "C80", "title": "Square clustering of a node", "statement": "OneNodeSquareClustering returns -1 for a node without neighbours, -3 when there are neighbours but no second neighbours, -2 when there are second neighbours but one neighbour only, and otherwise the fraction of the pairs of neighbours and second neighbours where the second neighbour is linked with both, a number between 0 and 1. Its integer sum overflows exactly when twice the number of such squares exceeds INT_MAX.", "quantifier": "All undirected networks without self links or repeated links, connected or not; all nodes.", "why_tests_cant": "The value is computed from predecessor counts of a search; correctness for all networks and the case analysis of return codes cannot be enumerated.", "anchors": ["src/graph.c:OneNodeSquareClustering", "src/graph.c:CountPredecessors"]}
{"id": "C81", "title": "Number of strongly connected components", "statement": "CountStronglyConnectedSets returns the number of strongly connected components (classes of nodes that can reach each other); it is 1 exactly when every node can be reached from every other node. An empty network dereferences NULL.", "quantifier": "All directed networks with at least one node.", "why_tests_cant": "The function removes nodes from a breadth-first list while it grows; correctness needs an invariant over all networks.", "anchors": ["src/graph.c:CountStronglyConnectedSets", "src/graph.c:AreConnectedList", "src/graph.c:RenewQueue", "src/graph.c:DequeueOne"]}
{"id": "C82", "title": "Largest strongly connected component: nodes", "statement": "The nodes of the network returned by GetLargestStronglyConnectedSet are exactly the nodes of one strongly connected component, each once, and no component is larger, unless the returned one has more than the threshold number of nodes.", "quantifier": "All directed networks with at least one node, all thresholds.", "why_tests_cant": "Statement about all networks; includes the early exit at half of the nodes.", "anchors": ["src/graph.c:GetLargestStronglyConnectedSet"]}
{"id": "C83", "title": "Largest strongly connected component: network", "statement": "The network returned by GetLargestStronglyConnectedSet has the labels of its nodes and exactly the links of the original network among them, with their weights, consistently numbered and with valid degree caches.", "quantifier": "All directed networks with distinct labels and at least one node, all thresholds.", "why_tests_cant": "Links are copied by label, cleaned and rewired; equality with the induced subnetwork must hold for all networks.", "anchors": ["src/graph.c:GetLargestStronglyConnectedSet", "src/graph.c:CleanAdjacencies", "src/graph.c:RewireAdjacencyByLabel", "src/graph.c:RenumberNodes", "src/graph.c:CopyAdjacencyList"]}
{"id": "C84", "title": "All connected components as networks", "statement": "GetAllConnectedSets returns one network per connected component, with the nodes of the component and all the links among them.", "quantifier": "All undirected networks of at most 10001 nodes with distinct labels.", "why_tests_cant": "Fails for every component but the first node's, silently: only a statement about the links of all returned networks shows it.", "anchors": ["src/graph.c:GetAllConnectedSets", "src/graph.c:ClearAdjacencies", "src/graph.c:AddAdjacencySoft"]}
{"id": "C85", "title": "Copies of partitions", "statement": "CopyPartition returns groups with the same nodes in the same order and the same sizes; after MapPartToNet the copy equals the original mapped to the network, and the assignment of nodes to groups in the network is unchanged by the copy. Before MapPartToNet the counters of the copy of a consistent partition are wrong in a known way: inner links are counted twice and the total is short by the inner links.", "quantifier": "All partitions without hierarchy; for the counters, all simple undirected networks and consistent partitions.", "why_tests_cant": "Equality of all fields for all partitions; the wrong counters show only when they are read before MapPartToNet.", "anchors": ["src/modules.c:CopyPartition", "src/modules.c:CopyGroup", "src/modules.c:AddNodeToGroup", "src/modules.c:MapPartToNet"]}
{"id": "C86", "title": "Partition in groups of equal size", "statement": "CreateEquiNPartition puts the nodes, in order, in groups of the given size, the last one possibly smaller, with right counters.", "quantifier": "All simple undirected networks, all positive sizes.", "why_tests_cant": "The function crashes for all numbers of nodes except one residue modulo the size; whether it crashes depends on arithmetic over all sizes.", "anchors": ["src/modules.c:CreateEquiNPartition", "src/modules.c:CompressPart"]}
{"id": "C87", "title": "Partition from the groups of the nodes", "statement": "CreatePartitionFromInGroup makes one group for each group number found in the nodes, with the nodes of that number in order, and with right link counters.", "quantifier": "All simple undirected networks with every node in a group.", "why_tests_cant": "Needs a recount of all counters for all networks and assignments.", "anchors": ["src/modules.c:CreatePartitionFromInGroup", "src/modules.c:AddNodeToGroup"]}
{"id": "C88", "title": "Network of a group", "statement": "BuildNetFromGroup returns a network with the nodes of the group, in order, their labels, and exactly the links of the original network among them with their weights, consistently numbered.", "quantifier": "All networks with distinct labels, all groups.", "why_tests_cant": "Equality with the induced subnetwork for all networks and groups.", "anchors": ["src/modules.c:BuildNetFromGroup", "src/graph.c:CleanAdjacencies", "src/graph.c:RewireAdjacencyByLabel"]}
{"id": "C89", "title": "Network of a group with its neighbours", "statement": "BuildNetFromGroupNeig returns a network with the nodes of the group and their neighbours, each once, and the links of the original network among them.", "quantifier": "All networks with distinct labels, all groups.", "why_tests_cant": "The failure is silent: the links exist in the right number but end at the wrong node.", "anchors": ["src/modules.c:BuildNetFromGroupNeig", "src/graph.c:RewireAdjacencyByNum", "src/graph.c:IsThereNode"]}
{"id": "C90", "title": "Reading a bipartite network", "statement": "FBuildNetworkBipart returns a network with one node of the first set per distinct label of the first column and one of the second set per distinct label of the second column, in order of first appearance; a label used in both columns stands for two nodes, which may be linked. Nodes are linked exactly when a line says so, with the first weight stated, or the sum of those stated when weights are added, and both ends agree. A line without enough fields gives NULL. Exchanging the columns exchanges the two sets.", "quantifier": "All files whose labels fit their buffers, with or without weights, adding them or not.", "why_tests_cant": "Quantifies over all files, with any repetition of labels and links.", "anchors": ["src/bipartite.c:FBuildNetworkBipart", "src/graph.c:AddAdjacency"]}
{"id": "C91", "title": "Removing a node of a bipartite network", "statement": "RemoveNodeBipart removes the node with the given label from the given set: the other nodes of both sets stay, in order and renumbered, with exactly the links that do not end at the removed node. A label that the set does not have crashes the program.", "quantifier": "All bipartite networks with distinct labels in each set, all labels, both sets.", "why_tests_cant": "The numbers of the remaining nodes and of the ends of links are given again; agreement must hold for all networks and positions.", "anchors": ["src/bipartite.c:RemoveNodeBipart", "src/graph.c:RemoveLink"]}
{"id": "C92", "title": "Random modular bipartite networks", "statement": "BuildModularBipartiteNetwork returns, for at least one agent and any team sizes and probabilities of the modules that add up to 1, a network without repeated links with the given number of teams, agents in consecutive modules of the given sizes, every team assigned to a module with the given probabilities, and a number of members in the given range; with p = 1 every team has as many members of its module as possible. It does not read outside its arrays, and it does not return when teams must be larger than the number of agents.", "quantifier": "All sizes, ranges and probabilities, all sequences of random numbers.", "why_tests_cant": "The faulty case needs a random number that is exactly 0; the other claims quantify over all sequences.", "anchors": ["src/bipartite.c:BuildModularBipartiteNetwork", "src/tools.c:geometric_dist_val"]}
{"id": "C93", "title": "Team size of modularbipart", "statement": "The teams of the network made by the program modularbipart have the team size given on the command line.", "quantifier": "All command lines with at least one module of at least one agent, all sequences of random numbers.", "why_tests_cant": "The network is random; that every run gives teams of another size is a statement about all sequences.", "anchors": ["utils/main_modularbipart.c:main", "src/bipartite.c:BuildModularBipartiteNetwork"]}
{"id": "C94", "title": "Participation coefficient in a bipartite network", "statement": "ParticipationCoefficientBipart is one minus the sum over groups of the squared fraction of team mates in the group, a number at least 0 and below 1, for every node; so is the mean over all nodes.", "quantifier": "All bipartite networks without repeated links, all assignments to groups with numbers below the number of nodes.", "why_tests_cant": "Quantifies over all networks and partitions.", "anchors": ["src/bipartite.c:ParticipationCoefficientBipart", "src/bipartite.c:StatisticsParticipationCoefficientBipart", "src/tools.c:mean"]}
{"id": "C95", "title": "Boxes of a layout", "statement": "Whenever the drawing has positive width and height, AssignBox (AssignBox3D, also depth) returns the number of a box of the grid, and the point lies in the strips of that box; without width or height it converts a value that is not a number to an integer. MDGraphLayout chooses between one and ten boxes per row when none is given, and its arithmetic is undefined for networks without links or with more than 46340 nodes.", "quantifier": "All grids, all extents and all points inside them.", "why_tests_cant": "Quantifies over all real coordinates, including the points on the borders of boxes and of the drawing.", "anchors": ["src/layout.c:AssignBox", "src/layout.c:AssignBox3D", "src/layout.c:MDGraphLayout"]}
{"id": "C96", "title": "Each pair of neighbouring boxes is visited once", "statement": "The loops over boxes of PotentialEnergy, CalculateNodeForces and CalculateNodeForces3D visit every pair of boxes that are the same or adjacent, also diagonally, exactly once and no other pair, and never read a box outside the grid.", "quantifier": "All numbers of boxes per row, in two and three dimensions.", "why_tests_cant": "The offsets and the cases to skip must fit each other on all borders of grids of every size.", "anchors": ["src/layout.c:CalculateNodeForces", "src/layout.c:PotentialEnergy", "src/layout.c:CalculateNodeForces3D"]}
{"id": "C97", "title": "Forces on the nodes of a layout", "statement": "CalculateNodeForces gives every node the sum of the forces of its links, as springs, and of the charges of all nodes in the same or adjacent boxes within the cutoff; it is not a number exactly when two interacting nodes are at the same place. The forces on all nodes add up to zero.", "quantifier": "All undirected networks without self links and repeated links, all coordinates, all grids with every node listed in its box.", "why_tests_cant": "The function adds every contribution to both nodes of a pair while walking over boxes, lists and links; that nothing is left out or counted twice is a statement about all of them.", "anchors": ["src/layout.c:CalculateNodeForces"]}
{"id": "C98", "title": "Boxes do not change the forces", "statement": "Dividing the drawing in boxes does not change the forces: two nodes nearer to each other than the cutoff are in the same box or in adjacent ones.", "quantifier": "All grids and extents, all pairs of points.", "why_tests_cant": "Depends on the shape of the drawing; quantifies over all real coordinates.", "anchors": ["src/layout.c:CalculateNodeForces", "src/layout.c:AssignBox"]}
{"id": "C99", "title": "Normalising coordinates", "statement": "NormalizeCoordinates maps the coordinates linearly so that the smallest is 0 and the largest is 1, in each direction; doing it again changes nothing. If all coordinates of a direction are equal the results are not numbers.", "quantifier": "All coordinates between -1e100 and 1e100, any number of nodes.", "why_tests_cant": "Quantifies over all lists of real numbers.", "anchors": ["src/layout.c:NormalizeCoordinate", "src/layout.c:NormalizeCoordinates"]}
{"id": "C100", "title": "Box lists of a layout stay correct", "statement": "During MDGraphLayout every node is listed in exactly one box, the one it is assigned to, exactly once, through every step of the simulation; no step reads or writes outside the arrays of boxes or removes a node from a box that does not list it. A step moves the nodes by the Verlet rule with drag.", "quantifier": "All undirected networks without self links and repeated links, all drags, time steps, numbers of steps and starting positions, as long as coordinates stay numbers.", "why_tests_cant": "An invariant over all steps of the simulation, for all real coordinates.", "anchors": ["src/layout.c:MDGraphLayout", "src/layout.c:AddNodeToBox", "src/layout.c:RemoveNodeFromBox"]}
{"id": "C101", "title": "Centre of a layout is at rest", "statement": "The centre of mass of the nodes does not move during the simulation of MDGraphLayout.", "quantifier": "All undirected networks without self links and repeated links, all parameters and starting positions, any number of steps.", "why_tests_cant": "A conservation law over all steps.", "anchors": ["src/layout.c:MDGraphLayout", "src/layout.c:CalculateNodeForces"]}
{"id": "C102", "title": "A layout fits the unit square", "statement": "MDGraphLayout gives every node coordinates in the unit square, and some node touches each of its four sides.", "quantifier": "All connected undirected networks with at least one node, all parameters and starting positions.", "why_tests_cant": "Quantifies over all networks, parameters and starting positions.", "anchors": ["src/layout.c:MDGraphLayout", "src/layout.c:NormalizeCoordinates"]}
{"id": "C103", "title": "Arranging the components of a drawing", "statement": "ArrangeComponents leaves the drawing of a connected network alone, moves every component of another network as a rigid body, and its result is determined by the network, the coordinates and the random numbers.", "quantifier": "All undirected networks, coordinates and sequences of random numbers.", "why_tests_cant": "The dependence on memory never written shows only with other contents of the heap.", "anchors": ["src/layout.c:ArrangeComponents", "src/tools.c:allocate_d_vec"]}
{"id": "C104", "title": "Energy of a three-dimensional layout", "statement": "PotentialEnergy3D takes into account all pairs of neighbouring boxes of its grid, as CalculateNodeForces3D does.", "quantifier": "All numbers of boxes per row.", "why_tests_cant": "Quantifies over grids of all sizes.", "anchors": ["src/layout.c:PotentialEnergy3D"]}
{"id": "C105", "title": "Error of the block model", "statement": "SBMError returns the root of the mean, over all pairs of nodes, of the squared difference between link (0 or 1) and link score; it is strictly between 0 and 1, and not a number for a network of one node.", "quantifier": "All undirected networks without self links with at least one node, all sequences of random numbers.", "why_tests_cant": "Quantifies over all networks and all random numbers of the sampler; the bounds follow from an invariant of the sampler.", "anchors": ["src/missing.c:SBMError"]}
{"id": "C106", "title": "Reliability of a network", "statement": "NetworkScore returns the ratio of two sums over the sampled divisions of the nodes of the observed network: the chances of the target network and of the observed network itself, given the links observed between groups. It is positive, and exactly 1 for the observed network; for every pair of groups the chances of all numbers of links, counted with the ways to place them, add up to 1.", "quantifier": "All pairs of undirected networks without self links on the same nodes, all numbers of samples, all sequences of random numbers.", "why_tests_cant": "The sums are built from tables of logarithms of factorials while the sampler moves nodes; that they are these chances is an identity for all networks and divisions.", "anchors": ["src/missing.c:NetworkScore"]}
{"id": "C107", "title": "Sampled partitions", "statement": "PartitionSampling returns as many partitions as asked for, each of which puts every node in exactly one group, just as the sampler had it when the copy was taken.", "quantifier": "All undirected networks without self links, all numbers of iterations and thinning factors, all sequences of random numbers.", "why_tests_cant": "Quantifies over all random numbers; the copies share nodes with the partition that goes on changing.", "anchors": ["src/missing.c:PartitionSampling"]}
{"id": "C108", "title": "Reconstruction keeps nodes and number of links", "statement": "NetReconstruct returns a simple network with the nodes of the observed network, as many links, and a score at least as high; each turn exchanges a missing link of largest score for a link of smallest score and keeps the exchange exactly if the score grows; if no exchange is kept, the network is the observed one.", "quantifier": "All undirected networks without self links, all score functions with link scores strictly between 0 and 1, all sequences of random numbers.", "why_tests_cant": "An invariant over any number of exchanges and undone exchanges.", "anchors": ["src/missing.c:NetReconstruct"]}
{"id": "C109", "title": "Network of the likely links", "statement": "NetFromSBMScores returns a network with the nodes of the given one in which two nodes are linked, in both directions, exactly if their score is above 1/2.", "quantifier": "All networks that fit an int and all scores.", "why_tests_cant": "Quantifies over all networks and scores.", "anchors": ["src/missing.c:NetFromSBMScores"]}
{"id": "C110", "title": "Search tree: insertion and lookup", "statement": "tsearch returns the key of the tree with the given label if there is one and leaves the keys alone, and otherwise inserts the new key at its place in the order; tfind finds exactly the keys inserted; the tree stays a red-black tree, so its height is at most twice the logarithm of the number of keys; the locations that rotations make invalid are never used.", "quantifier": "All trees that insertions and deletions can produce, all keys, all sequences of insertions.", "why_tests_cant": "Balance, order and the validity of the saved locations are invariants of single-pass top-down insertion over all trees.", "anchors": ["lib/search.c:__tsearch", "lib/search.c:maybe_split_for_insert", "lib/search.c:__tfind"]}
{"id": "C111", "title": "Search tree: deletion", "statement": "tdelete removes the key with the given label and no other, reports whether there was one, keeps the order and the red-black invariants, and never overruns its stack of 100 locations.", "quantifier": "All red-black trees with fewer than 2^49 keys, all labels.", "why_tests_cant": "The repair after the removal of a black node goes through many shapes at any depth; the bound of the stack holds only because of the balance.", "anchors": ["lib/search.c:__tdelete"]}
{"id": "C112", "title": "Search tree: walking and destroying", "statement": "twalk visits the keys in increasing order between their subtrees (postorder or leaf), leaves once and other nodes three times; tdestroy frees every key exactly once.", "quantifier": "All trees.", "why_tests_cant": "Quantifies over all trees.", "anchors": ["lib/search.c:__twalk", "lib/search.c:__tdestroy"]}
{"id": "C113", "title": "Label dictionaries", "statement": "GetNodeDict on the dictionary of MakeLabelDict returns the last node with the label asked for, and NULL if there is none; with distinct labels, every node is found by its label. While a file is read, equal labels get the same node, different labels different nodes, numbered in order of first appearance.", "quantifier": "All networks and labels, all sequences of labels read.", "why_tests_cant": "A refinement of a balanced tree to a lookup by label, over all networks.", "anchors": ["src/graph.c:MakeLabelDict", "src/graph.c:GetNodeDict", "src/graph.c:FBuildNetwork", "lib/search.c:__tsearch"]}
{"id": "C114", "title": "Heat-bath step of the recommender", "statement": "GibbsStepKState moves every node once, each with the probabilities of the heat bath: the chance of a group is proportional to the exponential of minus the change of HKState; it keeps both partitions consistent, and all tables of counts, the numbers of groups and the running energy exact, and is defined for every random number the generator can return.", "quantifier": "All networks with ratings 0..K-1, all consistent states, all streams of random numbers.", "why_tests_cant": "The incremental tables, the treatment of empty groups as one, and the shortlist that is not reduced when a group becomes empty must agree with the energy in every state.", "anchors": ["src/recommend.c:GibbsStepKState", "src/recommend.c:HKState", "src/modules.c:GetEmptyGroup"]}
{"id": "C115", "title": "Scores of the heat-bath recommender", "statement": "GibbsMultiLinkScoreKState returns, for each query and rating, the mean over nIter sampled pairs of partitions of (n_k+1)/(n+K), counted without the ratings of the queried pairs; the K scores are positive and sum to one, do not depend on the ratings of the queried pairs, and restarts discard all earlier samples.", "quantifier": "All networks with ratings 0..K-1, queries, lengths of warm-up, streams of random numbers, numbers of restarts.", "why_tests_cant": "Quantifies over all runs of a random process; a leak of held-out ratings shows up only in the statistics.", "anchors": ["src/recommend.c:GibbsMultiLinkScoreKState", "src/recommend.c:GibbsThermalizeKState"]}
{"id": "C116", "title": "Scores of all pairs", "statement": "AllLinkScore2State returns one query per pair of nodes of the two sets, pair (i, j) at position i*n2+j, whose score is the mean over nIter sampled pairs of partitions of (l+1)/(r+2), strictly between 0 and 1; the conflict program writes exactly one line for every pair of different labels.", "quantifier": "All networks with ratings 0 and 1, numbers of samples, streams of random numbers, numbers of restarts.", "why_tests_cant": "Quantifies over all runs of a random process, and the position of each pair over all sizes.", "anchors": ["src/conflict.c:AllLinkScore2State", "conflict/main_conflict.c:main"]}
{"id": "C117", "title": "Network files are read back", "statement": "A network written by FPrintNetAdjacencyList and read by FBuildNetwork with the same switches has the same links: a link from a to b exactly when the first network had one, with the weight as printed (1 without weights); with the symmetric switch each link is written once and read as both; the nodes are the ends of links. FPrintDegrees writes each node with its degree.", "quantifier": "All networks with distinct labels that are words, symmetric or not, weighted or not; all combinations of switches.", "why_tests_cant": "Round trip over all networks and switches, through the characters of the file.", "anchors": ["src/graph.c:FPrintNetAdjacencyList", "src/graph.c:FBuildNetwork", "src/graph.c:FPrintDegrees"]}
{"id": "C118", "title": "Bipartite network files are read back", "statement": "A bipartite network written by FPrintBipart and read by FBuildNetworkBipart has the same links with the weights as printed (1 without weights), and as nodes of each set those with links, also when a label is in both sets.", "quantifier": "All bipartite networks with labels that are words, distinct within each set; weighted or not.", "why_tests_cant": "Round trip over all networks, through the characters of the file.", "anchors": ["src/bipartite.c:FPrintBipart", "src/bipartite.c:FBuildNetworkBipart"]}
{"id": "C119", "title": "Pajek files", "statement": "FPrintPajekFile lists every node once, numbered from 1, with its label, and has exactly one line per link (with the symmetric switch one line per linked pair), with its weight if asked; FPrintPajekFileBipart numbers the second set after the first and writes one edge per link from the first set to the second; FPrintPajekPartitionFile gives two nodes the same positive number exactly when they are in the same group.", "quantifier": "All networks, partitions and switches.", "why_tests_cant": "Holds for every network, isolated nodes and links of a node to itself included.", "anchors": ["src/graph.c:FPrintPajekFile", "src/bipartite.c:FPrintPajekFileBipart", "src/modules.c:FPrintPajekPartitionFile"]}
{"id": "C120", "title": "Fast group operations", "statement": "AddNodeToGroupFast, RemoveNodeFromGroupFast, MoveNodeFast and MergeGroupsFast return the same values and leave the same node lists, sizes and inGroup fields as the full operations after any sequence of calls; mapping the partition to the network once at the end gives the same counters as keeping them up to date; MapPartToNetFast gives the lists of MapPartToNet with all counters 0.", "quantifier": "All networks, partitions and finite sequences of calls (merging a group with itself included).", "why_tests_cant": "Equivalence of two implementations over all sequences of calls.", "anchors": ["src/modules.c:AddNodeToGroupFast", "src/modules.c:RemoveNodeFromGroupFast", "src/modules.c:MoveNodeFast", "src/modules.c:MergeGroupsFast", "src/modules.c:MapPartToNetFast"]}
{"id": "C121", "title": "Block matrix of a partition", "statement": "BlockModel prints one line for each ordered pair of non-empty groups, with the number of connections between them (n), the fraction of all connections (f), the probability of a connection (p), the fraction minus the expected fraction (e), or the z-score (z).", "quantifier": "All simple symmetric networks, full partitions and types of output.", "why_tests_cant": "Normalisation over all networks and partitions; the error is a factor that a single expected value taken from a run would enshrine.", "anchors": ["src/modules.c:BlockModel", "src/modules.c:NG2GLinks"]}
{"id": "C122", "title": "Removing links by group", "statement": "RemoveWithinGroupLinks, RemoveBetweenGroupLinks and RemoveInterGroupLinks remove exactly the links of the nodes of the group, resp. the links between different groups, and leave all other links.", "quantifier": "All networks and partitions.", "why_tests_cant": "The links are removed while the list is traversed: whether this is defined depends on freed memory, not on observable results.", "anchors": ["src/modules.c:RemoveWithinGroupLinks", "src/modules.c:RemoveBetweenGroupLinks", "src/modules.c:RemoveInterGroupLinks"]}
{"id": "C123", "title": "Statistics of group sizes", "statement": "GroupSizeStatistics: mean size times number of non-empty groups is the number of nodes; minimum and maximum are attained and bound all sizes; the standard deviation is the root of the mean squared deviation and 0 exactly when all non-empty groups have the same size.", "quantifier": "All full partitions of all networks with nodes, empty groups anywhere in the list.", "why_tests_cant": "Quantifies over all partitions, with empty groups in any place.", "anchors": ["src/modules.c:GroupSizeStatistics"]}
{"id": "C124", "title": "Mapping a partition to another network", "statement": "MapPartToNetSoft only updates the network: every node gets the group whose list has its label, and no group if there is none; groups keep their counters; the network may be a subset of the one the partition was made for.", "quantifier": "All networks and partitions.", "why_tests_cant": "Relation between arbitrary pairs of network and partition.", "anchors": ["src/modules.c:MapPartToNetSoft"]}
{"id": "C125", "title": "Partition into equal groups", "statement": "CreateEquiNPartitionSoft gives ngroups groups of gsize labels each: label i is in group i/gsize and in no other, lists have no repetitions, all counters other than sizes are 0.", "quantifier": "All numbers of groups and group sizes.", "why_tests_cant": "Holds for all sizes; nested loops over a running label.", "anchors": ["src/modules.c:CreateEquiNPartitionSoft", "src/modules.c:AddNodeToGroupSoft"]}
{"id": "C126", "title": "Removal of isolated nodes", "statement": "RemoveIsolatedNodes returns the number of nodes without links, removes exactly these, keeps labels, links and weights of all others in the same order, and renumbers the nodes 0..n-1 without dangling references.", "quantifier": "All networks in which no link points to a node without links of its own (in particular all symmetric ones).", "why_tests_cant": "Pointer structure after removal of any subset of nodes, renumbering included.", "anchors": ["src/graph.c:RemoveIsolatedNodes", "src/graph.c:RenumberNodes"]}
{"id": "C127", "title": "Printed distributions of distances", "statement": "FPrintDistanceHistogram writes in increasing order one line per positive distance that occurs with the fraction of ordered pairs of different nodes at that distance, the sum of all distances over the number of these pairs, the fraction of pairs with a path, and the mean number of nodes at distance 1; FPrintDistanceHistogramFromNode writes the sum of the distances from the node over the number of other nodes and the number of nodes at distance 1.", "quantifier": "All networks of at most 10000 nodes, directed or not, connected or not.", "why_tests_cant": "Correctness of breadth-first search and of normalised counts over all networks.", "anchors": ["src/graph.c:FPrintDistanceHistogram", "src/graph.c:FPrintDistanceHistogramFromNode"]}
{"id": "C128", "title": "Link with the largest betweenness", "statement": "CalculateBiggestLinkBetweenness stores in *n1 and *n2 the two ends of an existing link whose betweenness is at least that of every other link, and nothing when there are no links.", "quantifier": "All simple symmetric networks with nodes.", "why_tests_cant": "Maximum over all links of a quantity defined by all shortest paths; the smallest networks have no counterexample.", "anchors": ["src/graph.c:CalculateBiggestLinkBetweenness", "src/graph.c:CalculateLinkBetweenness"]}
{"id": "C129", "title": "Statistics of betweenness", "statement": "NodeBetweennessStatistics: mean betweenness times the number of nodes is the sum over ordered pairs of nodes of their distance minus one; minimum and maximum are attained and bound the betweenness of every node; the standard deviation is the root of the mean squared deviation.", "quantifier": "All networks with nodes whose numbers of shortest paths fit an int.", "why_tests_cant": "The mean is tied to all distances by a double count over all shortest paths.", "anchors": ["src/graph.c:NodeBetweennessStatistics", "src/graph.c:CalculateNodeBetweenness"]}
{"id": "C130", "title": "Reading of queries", "statement": "ReadQueries gives one query per line, in order, to the nodes with the labels in the line. Labels that the network does not have are added as nodes without links, once each in order of appearance; all links and labels stay. Blank lines repeat the last query.", "quantifier": "All networks with distinct labels and all files of well formed lines, any number of blank lines.", "why_tests_cant": "Relation between arbitrary networks and files; new labels change the network while it is being searched.", "anchors": ["src/recommend.c:ReadQueries", "src/graph.c:GetNodeDict", "src/graph.c:CreateNodeGraph"]}
{"id": "C131", "title": "Recommender programs", "statement": "multi_recommend_2 prints for each query, in order, its labels and a score strictly between 0 and 1, the mean over the samples of the estimated probability of rating 1, made from the ratings that no query asks for; multi_recommend_k prints K positive scores that add up to 1. Called with too few arguments they print how to use them.", "quantifier": "All well formed files with ratings 0..K-1, all seeds, decorrelation steps and thermalisations, at least one iteration.", "why_tests_cant": "Random sampling: no finite number of runs shows the bounds, the absence of leaks or the order for all files and seeds.", "anchors": ["recommender/main_multi_recommend_2.c:main", "recommender/main_multi_recommend_k.c:main", "src/recommend.c:ReadRecommenderObservations", "src/recommend.c:ReadQueries", "src/recommend.c:MultiLinkScore2State", "src/recommend.c:MultiLinkScoreKState"]}
{"id": "C132", "title": "Thermalisation ends and means equilibrium", "statement": "The thermalisation of each sampler returns after finitely many batches of 20 samples, whatever the random numbers; when it returns, the last five batches all failed to lower the energy significantly with respect to one batch before them (or to the initial bounds).", "quantifier": "All networks, all seeds, all decorrelation steps, all start states that fulfil the invariant of the sampler.", "why_tests_cant": "Termination of a random loop with no bound in the code; a run that ends shows nothing about others.", "anchors": ["src/missing.c:ThermalizeLinkScoreMC", "src/missing.c:GibbsThermalizeLinkScoreMC", "src/missing.c:LSThermalizeMCKState", "src/multiblock.c:ThermalizeLSMCMB", "src/recommend.c:ThermalizeMC2State", "src/recommend.c:ThermalizeMCKState"]}
{"id": "C133", "title": "Decorrelation step", "statement": "The decorrelation step is the mean of ten non-negative estimates without the outliers farther than two standard deviations (at most two of ten are left out), as an integer; each estimate is twice the time of the only exponential through 1 at time 0 and the similarities measured at two positive times x1 < x2.", "quantifier": "All networks, seeds, similarity functions and outcomes of the numerical solver.", "why_tests_cant": "Quantified over the outcomes of a numerical solver and of random sampling; integer division in the times shows only for small networks.", "anchors": ["src/missing.c:CalculateDecay", "src/missing.c:GetDecorrelationStep", "src/missing.c:LSGetDecorrelationStepKState", "src/multiblock.c:GetDecorrelationStepMB", "src/only_deg.c:GetDecorrelationStepOD", "src/recommend.c:GetDecorrelationStep2State", "src/recommend.c:GetDecorrelationStepKState", "src/tools.c:mean", "src/tools.c:stddev"]}
{"id": "C134", "title": "Samplers with their own warm-up", "statement": "LinkScore, GibbsLinkScore, LinkScoreMB, LSMultiLinkScoreKState, MultiLinkScore2State and MultiLinkScoreKState, with their estimate of the decorrelation step and their thermalisation, give exactly the result of sampling after some list of Monte Carlo steps. So their scores are means over sampled partitions, between 0 and 1, and distributions over the ratings.", "quantifier": "All networks, seeds, iterations, similarity functions, moderate solvers, decorrelation steps given or estimated.", "why_tests_cant": "Refinement between the complete program and its sampling core, over all random executions.", "anchors": ["src/missing.c:LinkScore", "src/missing.c:GibbsLinkScore", "src/missing.c:LSMultiLinkScoreKState", "src/multiblock.c:LinkScoreMB", "src/recommend.c:MultiLinkScore2State", "src/recommend.c:MultiLinkScoreKState"]}
{"id": "C135", "title": "Networks own their memory", "statement": "A network built by any sequence of CreateNodeGraph, AddAdjacency and RemoveLink (nodes found with GetNode) uses only blocks of its own: no access to freed or foreign memory, no double free. It behaves as the network without pointers, failing exactly when that one fails (label too long, link not there, node not there); and RemoveGraph gives back exactly the memory that was taken, so that nothing leaks and nothing else is touched.", "quantifier": "All heaps, all sequences of operations of any length, all labels and weights.", "why_tests_cant": "A use after free or a leak is silent in tests; every sequence of operations must be covered.", "anchors": ["src/graph.c:CreateHeaderGraph", "src/graph.c:CreateNodeGraph", "src/graph.c:AddAdjacency", "src/graph.c:RemoveLink", "src/graph.c:GetNode", "src/graph.c:RemoveGraph", "src/graph.c:FreeNode", "src/graph.c:FreeAdjacencyList", "src/graph.c:FreeNodeLis"]}
{"id": "C136", "title": "A copy of a network shares no memory with it", "statement": "CopyNetwork builds the copy in new blocks only and does not change the source. Later changes of the copy (nodes and links added, links removed) do not show in the source and vice versa; source and copy can be removed in either order, and removing both leaves the memory as it was before the source was built.", "quantifier": "All networks in all heaps, all later sequences of operations on either network.", "why_tests_cant": "Aliasing shows only for particular sequences of later operations; a shared block freed twice may go unnoticed.", "anchors": ["src/graph.c:CopyNetwork", "src/graph.c:CopyAdjacencyList", "src/graph.c:AddAdjacencySoft", "src/graph.c:RewireAdjacencyByLabel", "src/graph.c:MakeLabelDict", "src/graph.c:RemoveGraph"]}
{"id": "C137", "title": "netcarto prints a clustering of the labels with its modularity", "statement": "For a well-formed file, netcarto prints every label of the file (with -b: of the first column, with -b -t: of the second) on exactly one of its lines, no line is empty, and the two numbers are Newman's modularity of this clustering for the normalised weights (with -b: of the weighted projection), without and with the diagonal terms of the null model. A file that is not well-formed is rejected.", "quantifier": "All files, labels, weights, options and random numbers.", "why_tests_cant": "The clusterings depend on the random numbers; a test compares at most one value for one seed. Failures need particular sequences of random numbers.", "anchors": ["netcarto/main_netcarto.c:main", "src/io.c:EdgeListFileInput", "src/fillpartitions.c:EdgeListToAdjaArray", "src/fillpartitions.c:ProjectBipartEdgeList", "src/sannealing.c:GeneralSA", "src/partition.c:CompressPartition", "src/partition.c:PartitionModularity", "src/io.c:ClusteringOutput"]}
{"id": "C138", "title": "netcarto -p evaluates the clustering in the file", "statement": "netcarto -p reads a clustering of the labels, reports that no node is missing and the number of groups, and prints the modularity of this clustering and the same groups in the same order. In particular it reads what netcarto itself has printed.", "quantifier": "All networks and all clusterings of their labels.", "why_tests_cant": "The space of clusterings cannot be enumerated.", "anchors": ["netcarto/main_netcarto.c:main", "src/io.c:AssignNodesToModulesFromFile", "src/io.c:ClusteringOutput", "src/partition.c:PartitionModularity"]}
{"id": "C139", "title": "netcarto -r prints the roles for the clustering", "statement": "The table has one line for each label, with the module of the label in a clustering whose modularity is printed above it, the within-module z-score and the participation coefficient computed from the weights in the file, and the role that the published table gives for them; it is printed whenever the clustering would be.", "quantifier": "All files, options and random numbers.", "why_tests_cant": "The values depend on the clustering found; tests cannot cover all of them.", "anchors": ["netcarto/main_netcarto.c:main", "src/io.c:TabularOutput", "src/partition.c:PartitionRolesMetrics", "src/partition.c:GetRole"]}
{"id": "C140", "title": "The largest connected set of an undirected network is a largest component", "statement": "In an undirected network GetLargestWeaklyConnectedSet ends and gives the network of a whole connected component with all its links and weights; no component is larger, unless the returned one has more nodes than the threshold.", "quantifier": "All undirected networks and thresholds.", "why_tests_cant": "Whether the search finds all nodes depends on the shape of the network and the order of nodes and links; tests use single networks.", "anchors": ["src/graph.c:GetLargestWeaklyConnectedSet"]}
{"id": "C141", "title": "The Laplacian spectrum has the properties known from spectral graph theory", "statement": "For an undirected network without self links LaplacianSpectrum gives one value per node, in increasing order; they are the roots of the characteristic polynomial of the Laplacian, none is negative, the number of zeros is the number of connected components and the sum is twice the number of links.", "quantifier": "All undirected networks with at least one node.", "why_tests_cant": "Eigenvalues are real numbers; a test compares a few spectra within tolerances.", "anchors": ["src/matrix.c:LaplacianSpectrum", "src/matrix.c:CalculateLaplacian"]}
{"id": "C142", "title": "Synchronizability is the ratio of the extreme nonzero eigenvalues", "statement": "Synchronizability is the largest eigenvalue of the Laplacian divided by the smallest eigenvalue that is not zero: the threshold 1e-10 never mistakes a nonzero eigenvalue for zero. It is at least 1.", "quantifier": "All undirected networks with up to 50000 nodes.", "why_tests_cant": "The smallest eigenvalue can be made arbitrarily small by large networks; no set of tests shows that the threshold is safe.", "anchors": ["src/matrix.c:Synchronizability", "src/matrix.c:LaplacianSpectrum"]}
{"id": "C143", "title": "countlinks prints the size of the network in the file", "statement": "For a file whose lines begin with two labels, countlinks prints the number of different labels, the number of links (pairs of different labels on some line, in either order, counted once) and the mean number of links of a label. For a missing file or one with a line of fewer than two fields the programs of utils crash.", "quantifier": "All files, also with repeated, reversed and self links.", "why_tests_cant": "The program joins the reader, the network and the counters; tests of the parts do not show that repeated and reversed lines are counted once in every file.", "anchors": ["utils/main_countlinks.c:main", "src/graph.c:FBuildNetwork", "src/graph.c:TotalNLinks"]}
{"id": "C144", "title": "netcompare prints the overlap of the networks in two files", "statement": "For two files netcompare prints the number of labels of each and in common, the number of links of each between common labels, the number of common links, and the four fractions of these numbers.", "quantifier": "All pairs of files.", "why_tests_cant": "The order of the labels differs between the files; a test fixes a pair of files.", "anchors": ["utils/main_netcompare.c:main", "src/graph.c:CompareTwoNetworks"]}
{"id": "C145", "title": "nodeprop prints degree and betweenness of every label", "statement": "For a file nodeprop prints one line for each label, in order of first appearance, with its number of links and its betweenness: the sum over ordered pairs of other labels of the fraction of shortest paths through the label.", "quantifier": "All files in which no two labels are joined by more than INT_MAX shortest paths.", "why_tests_cant": "Betweenness sums over all shortest paths of the network; tests check it on a few small networks.", "anchors": ["utils/main_nodeprop.c:main", "src/graph.c:CalculateNodeBetweenness"]}
{"id": "C146", "title": "getgiant prints a largest component of the network in the file", "statement": "For a file with lines, getgiant prints exactly the links of one connected component, each once; no component has more labels (unless this one has more than ten million).", "quantifier": "All nonempty files.", "why_tests_cant": "Whether the component is complete and largest depends on the whole network; tests fix a few.", "anchors": ["utils/main_getgiant.c:main", "src/graph.c:GetLargestWeaklyConnectedSet", "src/graph.c:FPrintNetAdjacencyList"]}
{"id": "C147", "title": "netrandomize prints a network with the same degrees", "statement": "For a file with at least one link, whatever the seed, netrandomize prints links between different labels of the file, none twice, such that every label has as many links as in the file.", "quantifier": "All files with a link and all sequences of random numbers.", "why_tests_cant": "The output is random; a test sees a few samples.", "anchors": ["utils/main_netrandomize.c:main", "src/graph.c:RandomizeSymmetricNetwork"]}
{"id": "C148", "title": "lapspec prints the spectrum of the network in the file", "statement": "For a nonempty file lapspec prints the eigenvalues of the Laplacian of the network of labels, numbered, in increasing order, with multiplicities; as many are zero as there are connected components.", "quantifier": "All nonempty files.", "why_tests_cant": "Eigenvalues are real numbers; a test compares a few spectra within tolerances.", "anchors": ["utils/main_lapspec.c:main", "src/matrix.c:LaplacianSpectrum"]}
{"id": "C149", "title": "netprop prints the standard properties of the network in the file", "statement": "For a file netprop prints the number of connected components, the size of a largest one and the mean size of the others, the numbers of labels and links, the mean degree, the mean inverse distance, the mean clustering, the assortativity (Pearson correlation of degrees at the ends of links), mean, deviation, minimum and maximum of betweenness, the ratio of the extreme nonzero eigenvalues of the Laplacian, and the mean degree over the mean squared degree.", "quantifier": "All files with a link.", "why_tests_cant": "Each number is a function of the whole network; unit tests of the routines do not show that the program puts them together on the same network, nor for which networks it works.", "anchors": ["utils/main_netprop.c:main", "src/graph.c:GetAllConnectedSets", "src/graph.c:AverageSquaredDegree", "src/graph.c:Assortativity", "src/matrix.c:Synchronizability"]}
{"id": "C150", "title": "The reliability programs write the block-model reliability of all pairs of labels", "statement": "reliability_links writes to missing.dat the pairs of labels that are not linked and to spurious.dat those that are, each pair once, in the order of the labels in the file, with a value that is the average over 10000 divisions of the labels of (l+1)/(r+2), where l of the r pairs between the two groups are linked; all values are strictly between 0 and 1. reliability_links_gibbs prints the same for all pairs. Without the seed, with a file that cannot be opened or a line with one field the programs do not crash.", "quantifier": "All files of pairs of labels, all seeds, all names.", "why_tests_cant": "The output is random; a test can check neither all runs nor that every value is such an average.", "anchors": ["reliability/main_reliability_links.c:main", "reliability/main_reliability_links_gibbs.c:main", "src/missing.c:LinkScore", "src/missing.c:GibbsLinkScore", "src/graph.c:FBuildNetwork"]}
{"id": "C151", "title": "The sparse reliability program uses a prior with the density of the network", "statement": "reliability_links_gibbs_sparse prints for all pairs of labels the average over 10000 divisions of (l+a)/(r+a+1/2), where a/(a+1/2) is the fraction of pairs of labels that are linked; it is undefined if and only if no pair or all pairs are linked.", "quantifier": "All files, all seeds.", "why_tests_cant": "The output is random and depends on all sampled divisions.", "anchors": ["reliability/main_reliability_links_gibbs_sparse.c:main", "src/sparse_missing.c:SparseGibbsLinkScore"]}
{"id": "C152", "title": "The multiblock programs write the two-layer link probabilities of all pairs of labels", "statement": "reliability_links_mb, reliability_links_mb_OR and their Gibbs versions write to the file named as the input with the suffix .AND_scores or .OR_scores, for all pairs of labels, the average over 10000 divisions of the probability that one more pair of the two groups is linked, when a link is seen if both (OR: at least one) of two layers have it. They do so for every file.", "quantifier": "All files, all names, all seeds.", "why_tests_cant": "Random output; the failures need particular draws, small networks or long names.", "anchors": ["multiblock/main_reliability_links_mb.c:main", "multiblock/main_reliability_links_mb_OR.c:main", "multiblock/main_reliability_links_mb_gibbs.c:main", "multiblock/main_reliability_links_mb_gibbs_OR.c:main"]}
{"id": "C153", "title": "The only_degeneration programs write the one-layer reliability of all pairs of labels", "statement": "only_degeneration_mb and only_degeneration_mb_gibbs write to the file with the suffix .scores, for all pairs of labels, the average over 10000 divisions of the probability of one more link in the one-layer model, which is the reliability (l+1)/(r+2) of reliability_links; only_degeneration_mb is never undefined for names of less than 193 bytes.", "quantifier": "All nonempty files, all seeds.", "why_tests_cant": "Random output.", "anchors": ["only_deg/main_only_degeneration_mb.c:main", "only_deg/main_only_degeneration_mb_gibbs.c:main"]}
{"id": "C154", "title": "mutualinfo prints the normalized mutual information of two files of groups", "statement": "Given two files of groups (words separated by any white space, each group ended by the word ///) of the same labels, no label twice in a file, mutualinfo prints 2I/(H+H'), I being the mutual information and H, H' the entropies of the two divisions; the number is between 0 and 1, the same for the files exchanged, and 1 exactly if both files have the same groups. Missing arguments, missing or empty files and files whose last group is not ended are reported.", "quantifier": "All texts of files, all names; up to 46340 labels.", "why_tests_cant": "The claim is about all pairs of texts and all arrangements of white space.", "anchors": ["utils/main_mutualinfo.c:main", "src/modules.c:FCreatePartition", "src/modules.c:MutualInformation"]}
{"id": "C155", "title": "bipartitemodularity prints the bipartite modularity of the groups of a file", "statement": "Given a file of pairs of labels, a file of groups of labels of the first column (of the second, if the third argument is 1) and the third argument, bipartitemodularity prints the bipartite modularity of Guimera, Sales-Pardo and Amaral of these groups: over ordered pairs of different labels in the same group, shared teams over the sum of m(m-1) less the product of the numbers of teams over the square of the sum of m. A label of the groups that is not in the network, a missing file or argument, or a line with one field are reported.", "quantifier": "All texts of the two files, all third arguments; degrees up to 46340 and 65535.", "why_tests_cant": "All networks and all groups.", "anchors": ["utils/main_bipartitemodularity.c:main", "src/bipartite.c:FBuildNetworkBipart", "src/modules.c:FCreatePartition", "src/modules.c:MapPartToNet", "src/bipartite.c:ModularityBipart"]}
{"id": "C156", "title": "bipartitemodularity_w prints a weighted bipartite modularity that reduces to the unweighted one", "statement": "Given a file of lines label label weight and a file of groups, bipartitemodularity_w prints the sum over ordered pairs of different labels of the same group of sum of products of weights to common teams over the sum of W(W-1), less the product of strengths over the square of the sum of W, W being the sum of the weights of a team (the first weight stated counts if a pair is repeated); if all weights are 1 this is the bipartite modularity.", "quantifier": "All texts of the two files for which the two sums are not zero.", "why_tests_cant": "All networks, weights and groups.", "anchors": ["utils/main_bipartitemodularity_w.c:main", "src/bipartite.c:ModularityBipartWeighted", "src/modules.c:MapPartToNet"]}
{"id": "C157", "title": "reliability_links_k writes, for every pair of labels, a distribution over the K ratings that is an average over divisions", "statement": "Given K, a file of lines label label rating with ratings among 0..K-1, and a seed, reliability_links_k writes two files: the pairs of labels that are not rated and the pairs that are, every pair once and in the order of the labels, each with K numbers. There are 10000 divisions of the labels such that the k-th number of every pair is the average over them of (n_k+1)/(n+K), where n is the number of ratings between the groups of the two labels (a pair rated again counts once, with its first rating) and n_k how many of them are k; the numbers of a pair are positive with sum 1. Missing arguments, a missing file, a malformed line or K < 1 are reported.", "quantifier": "All texts of the file, all K, all sequences of random numbers, all acceptance rules.", "why_tests_cant": "The numbers are random; that they are averages over one common set of divisions, for all networks and seeds, is no observable of a run.", "anchors": ["reliability/main_reliability_links_k.c:main", "src/missing.c:LSMultiLinkScoreKState"]}
{"id": "C158", "title": "reliability_reconstruct writes as many links as it was given, and only links that explain them better", "statement": "Given a file of pairs of labels and a seed, reliability_reconstruct writes a file that lists, each once and smaller label first, exactly as many links as the file has, between labels of the file; these links are those of the file or there are 100 divisions of the labels over which the links written are more likely than the links of the file, given the links of the file, under the stochastic block model. Missing arguments, a missing file or a malformed line are reported.", "quantifier": "All texts of the file, all sequences of random numbers, all acceptance rules of the samplers.", "why_tests_cant": "The search is random; the claim holds for all networks and all seeds.", "anchors": ["reliability/main_reliability_reconstruct.c:main", "src/missing.c:NetReconstruct", "src/missing.c:NetworkScore", "src/graph.c:FPrintNetAdjacencyList"]}
{"id": "C159", "title": "multi_recommend_2, multi_recommend_k and multi_recommend_k_gibbs print forecasts that do not use the ratings asked for", "statement": "Given a file of lines person thing rating, a file of lines person thing (the queries) and a seed (and K for the programs with K ratings), the recommenders print the queries in their order, each with numbers for the ratings. There are 10000 divisions of the persons and of the things of the two files such that the number for rating k of every query is the average over them of (n_k+1)/(n+K), where n is the number of ratings from the group of the person to the group of the thing, not counting the pairs of the queries (a pair rated again counts once, with its first rating), and n_k how many of them are k; the numbers of a query are positive with sum 1. Persons and things that occur only in queries are accepted. Missing arguments, a missing file, a malformed line or K < 1 are reported.", "quantifier": "All texts of the two files, all K, all sequences of random numbers, all acceptance rules.", "why_tests_cant": "The numbers are random; that they are averages over one common set of divisions and never use a rating asked for, for all networks and seeds, is no observable of a run.", "anchors": ["recommender/main_multi_recommend_2.c:main", "recommender/main_multi_recommend_k.c:main", "recommender/main_multi_recommend_k_gibbs.c:main", "src/recommend.c:ReadQueries", "src/recommend.c:MultiLinkScore2State", "src/recommend.c:MultiLinkScoreKState", "src/recommend.c:GibbsMultiLinkScoreKState"]}
{"id": "C160", "title": "conflict writes a forecast for every pair of a person and a thing with different labels", "statement": "Given a file of lines person thing rating with ratings 0 and 1, and a seed, conflict writes one line for each pair of a person and a thing whose labels differ, those of the first person of the file first, with a number strictly between 0 and 1. There are 10000 divisions of the persons and the things such that every number is the average over them of (n_1+1)/(n+2), where n is the number of ratings from the group of the person to the group of the thing and n_1 how many of them are 1. Missing arguments, a missing file or a malformed line are reported; the number of pairs does not matter.", "quantifier": "All texts of the file, all sequences of random numbers, all acceptance rules.", "why_tests_cant": "The numbers are random; the claim holds for all networks and seeds, and the overflow needs more than 2^31 pairs.", "anchors": ["conflict/main_conflict.c:main", "src/conflict.c:AllLinkScore2State"]}
{"id": "C161", "title": "The forces of a drawing in space", "statement": "CalculateNodeForces3D gives every node, in each of the three directions, the sum of the forces of its springs (strength = weight of the link, length 0) and of the charges in its own and the neighbouring boxes within the cutoff; the forces add up to zero in each direction. If two nodes that act on one another are in one place, the result is not a number.", "quantifier": "All undirected simple weighted networks, all coordinates, all numbers of boxes, all ways the nodes are filed.", "why_tests_cant": "That no pair of boxes is visited twice or left out, for every number of boxes, and that the forces cancel exactly, is a statement about all configurations.", "anchors": ["src/layout.c:CalculateNodeForces3D"]}
{"id": "C162", "title": "A layout in space", "statement": "MDGraphLayout3D moves every node by the Verlet rule with drag, keeps every node filed in the box that contains it, keeps the centre of the drawing in its place, and gives every node coordinates in the unit cube so that some node touches each of its six sides.", "quantifier": "All undirected networks with at least one node, all parameters and starting positions.", "why_tests_cant": "Quantifies over all networks, parameters and starting positions; a node in a wrong box changes forces without any visible failure.", "anchors": ["src/layout.c:MDGraphLayout3D", "src/layout.c:NormalizeCoordinates3D", "src/layout.c:AssignBox3D"]}
{"id": "C163", "title": "A layout in space that is pulled into a plane", "statement": "MDGraphLayout2Dp moves the nodes as MDGraphLayout3D does, with a spring towards the plane z = 1/2 whose strength is dt times the number of steps since the step after the first one with a kinetic energy below 1/1000 per node. It stops at the first step with an energy below 1/100000 per node. The centre of the drawing moves neither in the x nor in the y direction, and every node of a connected network gets coordinates in the unit square so that some node touches each side.", "quantifier": "All undirected networks with at least one node, all parameters and starting positions.", "why_tests_cant": "Quantifies over all networks, parameters, starting positions and steps.", "anchors": ["src/layout.c:MDGraphLayout2Dp", "src/layout.c:NormalizeCoordinates"]}
{"id": "C164", "title": "What netlayout prints", "statement": "netlayout prints one line for each label of its file, in order of first appearance, with coordinates that fill the unit square. Within each connected component they show, up to the units of the axes, the last state of the integration (in the plane, in space, or in space and pulled into a plane) that starts at the random numbers, for the graph of the file and the step, number of steps and damping given. Every file with a link, a step other than 0 and at most 46340 labels gets such coordinates.", "quantifier": "All texts of the file, command lines and random numbers.", "why_tests_cant": "Quantifies over all files and random numbers; relates printed labels and coordinates to the integration of the whole network.", "anchors": ["utils/main_netlayout.c:main", "src/layout.c:MDGraphLayout", "src/layout.c:MDGraphLayout2Dp", "src/layout.c:MDGraphLayout3D", "src/layout.c:PrintNodeCoordinates", "src/layout.c:ArrangeComponents"]}
{"id": "C165", "title": "What multinetlayout prints", "statement": "multinetlayout prints one line for each label of its files, in order of first appearance in the files one after the other, with coordinates that fill the unit square. Within each connected component of the union of the networks they show, up to the units of the axes, the last state of an integration of 100000 steps for the union, in which every link has weight 1 however many files have it.", "quantifier": "All lists of at least two files and all random numbers.", "why_tests_cant": "Quantifies over all lists of files; the union is built by repeated sums of networks with dictionaries of labels.", "anchors": ["utils/main_multinetlayout.c:main", "src/graph.c:AddTwoNetworks", "src/layout.c:MDGraphLayout", "src/layout.c:PrintNodeCoordinates"]}
{"id": "C166", "title": "What netcarto-legacy writes", "statement": "For a well-formed file with a link, netcarto-legacy divides the labels into modules and writes files that describe this division: members and numbers of links of each module, modularity, the network, the number of the module, degree, participation coefficient, within-module degree and role of each label, and mean and standard deviation of the modularities found in random graphs with the same degrees.", "quantifier": "All files, options, decisions of the annealing and random numbers other than 0.", "why_tests_cant": "Quantifies over all networks and random choices; the modules are not determined by the input, so a test can only look at some divisions.", "anchors": ["netcarto/main_netcarto_legacy.c:main", "src/modules.c:SACommunityIdent", "src/modules.c:FPrintPartition", "src/modules.c:CatalogRoleIdent", "src/graph.c:RandomizeSymmetricNetwork"]}
{"id": "C167", "title": "Table of modules and roles of a bipartite network", "statement": "FPrintTabNodesBipart writes to the file it is given one line for each node of the first set, module by module: its label, the number of its module, its role, its participation coefficient and its within-module score, computed from the ties that the nodes of the first set have through common neighbours.", "quantifier": "All bipartite networks, partitions of the first set, and both switches (degrees or strengths, weighted or not).", "why_tests_cant": "Quantifies over all networks and partitions; the scores depend on all pairs of nodes at once.", "anchors": ["src/bipartite.c:FPrintTabNodesBipart", "src/bipartite.c:ProjectBipart", "src/bipartite.c:ProjectBipartWeighted", "src/modules.c:MapPartToNetFast"]}
{"id": "C168", "title": "Block model error compared with random networks", "statement": "SBMStructureScore returns the difference between the mean block model error of nrep random networks with the degrees of the given network and the error of the network itself, in units of the standard deviation of the former.", "quantifier": "All simple networks with links, all numbers of repetitions, random numbers and decisions of the sampler.", "why_tests_cant": "The random networks are different in each run; a test can neither see which were used nor cover the random choices.", "anchors": ["src/missing.c:SBMStructureScore", "src/missing.c:SBMError", "src/graph.c:RandomizeSymmetricNetwork", "src/tools.c:stddev"]}
{"id": "C169", "title": "Compressing and searching a list of groups", "statement": "CompressPart takes exactly the empty groups out of the linked list of a partition, frees each of them once, keeps the order, labels and sizes of the others and touches no other memory; afterwards NGroups gives the number that NNonEmptyGroups gave before. GetGroup finds the first group with a label, and NULL exactly if there is none; GetLink finds the first link to a node if there is one. The strengths of a node towards all labels add up to its strength, and ResetNetGroup leaves every node without group.", "quantifier": "All linked lists of groups in memory (any number of empty groups, in any place), all labels, networks and partitions.", "why_tests_cant": "Use of freed memory or a lost group shows only for some positions of the empty groups; a test sees neither all lists nor accesses to freed memory.", "anchors": ["src/modules.c:CompressPart", "src/modules.c:GetGroup", "src/modules.c:NGroups", "src/modules.c:NNonEmptyGroups", "src/modules.c:StrengthToGroupByNum", "src/modules.c:ResetNetGroup", "src/graph.c:GetLink"]}
{"id": "C170", "title": "Freeing a dictionary of labels", "statement": "FreeLabelDict, which walks over the nodes of a tsearch tree as if they were structures with the fields key, left and right, frees each node of the tree, each entry and each label exactly once and nothing else.", "quantifier": "All red-black trees of labels in memory, in the layout of lib/search.c and in that of a recent GNU C library, which keeps the colour of a node in the lowest bit of its left pointer.", "why_tests_cant": "Whether it crashes depends on the C library and on whether the tree has a red node, i.e. on the number of labels; on another library or with 1, 3, 7 labels a test passes.", "anchors": ["src/graph.c:FreeLabelDict", "src/graph.c:FreeNodeTree", "src/io.c:free_node_tree"]}
{"id": "C171", "title": "Freeing a partition with its hierarchy", "statement": "RemovePartition frees each group of a partition, each entry and label of its lists of nodes and, recursively, each partition of a group exactly once, reads no freed memory and touches no other memory; a second call on the same partition is undefined.", "quantifier": "All partitions in memory with any number of groups, any lists of nodes and any hierarchy, all blocks different.", "why_tests_cant": "Reading freed memory and freeing twice usually go unnoticed in a run, and the shapes of hierarchies are unbounded.", "anchors": ["src/modules.c:RemovePartition", "src/graph.c:FreeAdjacencyList", "src/graph.c:FreeNodeLis"]}
{"id": "C172", "title": "The link prediction sampler has the right distribution", "statement": "One attempt of LinkScoreMCStep is a Metropolis step for the energy of the block model: a node, another label, acceptance exactly if the next number is below min(1, exp(-dH)), the numbers for each choice filling intervals of equal length. It is in detailed balance with exp(-energy), every division can be reached, and exp(-energy) is the only stationary distribution up to a factor. The term log (n-k)! makes the total weight of all labellings of the same groups n! exp(-energy of the groups).", "quantifier": "All simple networks, all divisions, nodes and labels, all random numbers; all biases.", "why_tests_cant": "A test sees a few runs of a random sampler; that the distribution is exactly stationary, for every network, cannot be read off samples, and a wrong correction for labels shifts it by a factor that looks like noise.", "anchors": ["src/missing.c:LinkScoreMCStep", "src/missing.c:PartitionH"]}
{"id": "C173", "title": "The samplers of two-layer and degree models have the right distribution", "statement": "As C172, for LSMCStepMB, ORLSMCStepMB and LSMCStepMB_OD with their energies and the term LogDegeneracy for the number of groups.", "quantifier": "All simple networks, divisions, random numbers and biases; any pair term.", "why_tests_cant": "A test sees a few runs of a random sampler; that the distribution is exactly stationary, for every network, cannot be read off samples, and a wrong correction for labels shifts it by a factor that looks like noise.", "anchors": ["src/multiblock.c:LSMCStepMB", "src/multiblock.c:ORLSMCStepMB", "src/only_deg.c:LSMCStepMB_OD"]}
{"id": "C174", "title": "The sampler of ratings has the right distribution", "statement": "As C172, for LSMCStepKState, which makes the move before it decides and takes it back if it is not accepted.", "quantifier": "All simple networks with ratings below K, all divisions and random numbers, all K at least 1.", "why_tests_cant": "A test sees a few runs of a random sampler; that the distribution is exactly stationary, for every network, cannot be read off samples, and a wrong correction for labels shifts it by a factor that looks like noise.", "anchors": ["src/missing.c:LSMCStepKState", "src/missing.c:LSHKState"]}
{"id": "C175", "title": "The samplers of the recommenders have the right distribution", "statement": "One attempt of MCStep2State or MCStepKState chooses a set by comparing the first number with a fixed ratio and then is a Metropolis step in that set. The weights exp(-energy) are in detailed balance, and are the only stationary ones up to a factor if both sets have two nodes or more. All labellings of the same groups of both sets have together the weight n1! n2! exp(-energy of the groups).", "quantifier": "All bipartite networks, all divisions of both sets, all random numbers, two or K ratings.", "why_tests_cant": "A test sees a few runs of a random sampler; that the distribution is exactly stationary, for every network, cannot be read off samples, and a wrong correction for labels shifts it by a factor that looks like noise.", "anchors": ["src/recommend.c:MCStep2State", "src/recommend.c:MCStepKState"]}
{"id": "C176", "title": "The heat-bath sampler of missing links has the right distribution", "statement": "In GibbsLinkScoreStep, whenever two groups or more are listed and the random number u is not 0, a node goes to each listed group for u in an interval of length exp(-energy after) over the sum of exp(-energy after) for all n groups, and to the first empty group otherwise. Without labels these are the probabilities of the heat bath, whatever the list; they do not depend on labels, and if the groups have the Boltzmann distribution before the move of a node they have it after.", "quantifier": "All simple networks, all divisions, all lists that hold the non-empty groups, all nodes, all random numbers in (0,1).", "why_tests_cant": "Whether each destination has exactly its share of the unit interval, including the groups that are left off the list and counted together, cannot be read off samples; a small error in one weight looks like noise.", "anchors": ["src/missing.c:GibbsLinkScoreStep", "src/modules.c:GetEmptyGroup"]}
{"id": "C177", "title": "The heat-bath samplers of two-layer, degree and sparse models have the right distribution", "statement": "In GibbsLinkScoreStepMB, ORGibbsLinkScoreStepMB, GibbsLinkScoreStepMB_OD and SparseGibbsLinkScoreStep, whenever two groups or more are listed and the random number u is not 0, a node goes to each listed group for u in an interval of length exp(-energy after) over the sum of exp(-energy after) for all n groups, and to the first empty group otherwise. Without labels these are the probabilities of the heat bath, whatever the list; they do not depend on labels, and if the groups have the Boltzmann distribution before the move of a node they have it after.", "quantifier": "All simple networks, all divisions, all lists that hold the non-empty groups, all nodes, all random numbers in (0,1), all parameters of the prior.", "why_tests_cant": "Whether each destination has exactly its share of the unit interval, including the groups that are left off the list and counted together, cannot be read off samples; a small error in one weight looks like noise.", "anchors": ["src/multiblock.c:GibbsLinkScoreStepMB", "src/multiblock.c:ORGibbsLinkScoreStepMB", "src/only_deg.c:GibbsLinkScoreStepMB_OD", "src/sparse_missing.c:SparseGibbsLinkScoreStep"]}
{"id": "C178", "title": "The heat-bath sampler of the recommender has the right distribution", "statement": "In GibbsStepKState a node of either set goes to each listed group for u in an interval of length exp(-energy after) over the sum of exp(-energy after) for all groups of its set, and to the first empty group otherwise. Without labels these are the probabilities of the heat bath, whatever the list; they do not depend on the labels in either set, and if the groups of both sets together have the Boltzmann distribution before the move of a node they have it after.", "quantifier": "All bipartite networks with ratings, all divisions of both sets, all nodes, all random numbers in (0,1), all K > 0.", "why_tests_cant": "Whether each destination has exactly its share of the unit interval, including the groups that are left off the list and counted together, cannot be read off samples; a small error in one weight looks like noise.", "anchors": ["src/recommend.c:GibbsStepKState"]}
{"id": "C179", "title": "The heat-bath samplers forget the start", "statement": "A step of GibbsLinkScoreStep (also of the versions in multiblock.c, only_deg.c and of the sparse model) moves every node in turn, GibbsStepKState every node of the first and then of the second set. From every division, after k steps the mean of every function f with values in [m, M] differs from its mean in the Boltzmann distribution by at most (1 - (exp(-D)/n)^n)^k (M - m), where D is the largest difference of energies (for two sets the product of both powers). For functions of the groups without labels the mean after each move does not depend on the list of groups.", "quantifier": "All simple networks with a node, all energies of the models, all starting divisions, all functions of the division, all numbers of steps.", "why_tests_cant": "Convergence is a statement on all numbers of steps and all starts; a sampler that is stuck in a part of the divisions passes every test of finite length.", "anchors": ["src/missing.c:GibbsLinkScoreStep", "src/recommend.c:GibbsStepKState", "src/multiblock.c", "src/only_deg.c"]}
{"id": "C180", "title": "The Metropolis samplers forget the start", "statement": "From every division, after j attempts of LinkScoreMCStep, LSMCStepKState, the versions in multiblock.c and only_deg.c, or the steps of the recommender, the mean of every function of the division differs from its mean in the Boltzmann distribution by a bound that decreases geometrically with j.", "quantifier": "All networks with two nodes or more (in each set), all starting divisions, all functions, all numbers of attempts.", "why_tests_cant": "Convergence is a statement on all numbers of attempts; a chain that alternates between two sets of divisions looks right in long averages.", "anchors": ["src/missing.c:LinkScoreMCStep", "src/missing.c:LSMCStepKState", "src/recommend.c", "src/multiblock.c", "src/only_deg.c"]}
{"id": "C181", "title": "The link score estimates the posterior probability of the link", "statement": "Suppose the nodes are divided into groups, each pair of groups has its own probability of links, uniform on [0,1] beforehand, and a division into k groups has weight exp(-linC k) beforehand. Given a division, the probability of the network (an integral) times this weight is the Boltzmann weight exp(-H) of the division summed over its labels, up to the same factor for all divisions; the term (l+1)/(r+2) that the program adds for a pair is the posterior mean of its link probability; the mean of these terms in the Boltzmann distribution is the posterior probability of the link, all divisions considered; and averages of the terms over samples taken at any times late enough have means as near to it as one likes, whatever the start.", "quantifier": "All simple networks (three nodes or more for LinkScore, one or more for GibbsLinkScore), all pairs of nodes, all linC, all starting divisions, all choices of late sampling times.", "why_tests_cant": "The posterior probability sums over all divisions of the nodes, whose number grows faster than exponentially, and the limit ranges over all sampling times.", "anchors": ["src/missing.c:LinkScore", "src/missing.c:GibbsLinkScore", "src/missing.c:LinkScoreMCStep", "src/missing.c:GibbsLinkScoreStep", "src/missing.c:PartitionH"]}
{"id": "C182", "title": "The forecasts of the recommenders are posterior probabilities of ratings", "statement": "Suppose persons and things are divided into groups, all pairs of divisions being equally likely beforehand, and the ratings of each group of persons for each group of things are such that all multisets of ratings are equally likely and all orders. Then exp(-H) of two divisions, summed over their labels, is proportional to the probability of the ratings; (n_k+1)/(N+K) is the probability that a further rating between the two groups is k; its mean in the Boltzmann distribution is the probability of the rating given the ratings alone; and averages over samples taken at any times late enough have means as near to it as one likes, whatever the start. With two ratings H2State and HKState are equal.", "quantifier": "All bipartite networks with ratings (three nodes or more in each set for MultiLinkScore2State and MultiLinkScoreKState, one for GibbsMultiLinkScoreKState), all K, all pairs, all starts, all choices of late sampling times.", "why_tests_cant": "The posterior probability sums over all divisions of the nodes, whose number grows faster than exponentially, and the limit ranges over all sampling times.", "anchors": ["src/recommend.c:MultiLinkScore2State", "src/recommend.c:MultiLinkScoreKState", "src/recommend.c:GibbsMultiLinkScoreKState", "src/recommend.c:H2State", "src/recommend.c:HKState"]}
{"id": "C183", "title": "The forecasts of ratings between nodes of one set are posterior probabilities", "statement": "As C182 with one set of nodes: exp(-LSHKState) of a division, summed over its labels, is proportional to the probability of the ratings, and the long-run mean of the scores of LSMultiLinkScoreKState is the posterior probability of the rating.", "quantifier": "All simple networks with ratings and three nodes or more, all K, all pairs of nodes, all starts, all choices of late sampling times.", "why_tests_cant": "The posterior probability sums over all divisions of the nodes, whose number grows faster than exponentially, and the limit ranges over all sampling times.", "anchors": ["src/missing.c:LSMultiLinkScoreKState", "src/missing.c:LSHKState", "src/missing.c:LSMCStepKState"]}
{"id": "C184", "title": "The scores of the two-layer, degree and sparse models are posterior probabilities", "statement": "Suppose a given pattern of l links on the r pairs of two groups has the probability L(r,l) of the model (an integral over unknown probabilities of links in one layer, in both of two layers, in at least one of two layers, or with a Beta prior), and a division into k groups has weight exp(D(k) - linC k) beforehand. Then exp(-energy) of a division, summed over its labels, is proportional to weight times probability of the network; the term of the score is the probability that a further pair is linked (one minus it in the OR model); and the long-run mean of the scores is the posterior probability of the link (one minus it).", "quantifier": "All simple networks, all these models, all D and linC, all pairs of nodes, all starts, all choices of late sampling times.", "why_tests_cant": "The posterior probability sums over all divisions of the nodes, whose number grows faster than exponentially, and the limit ranges over all sampling times.", "anchors": ["src/multiblock.c", "src/only_deg.c", "src/sparse_missing.c"]}
{"id": "C185", "title": "The scores are accurate with a probability that grows with the number of samples", "statement": "For every network there is a constant C such that the average of the scores of a pair over m samples, taken every s steps after w steps from any start, differs from the posterior probability of C181 to C184 by delta or more with probability at most C/(m delta^2).", "quantifier": "All simple networks and bipartite networks with ratings (three nodes or more in each set for the Metropolis samplers), all samplers of missing.c, recommend.c, multiblock.c, only_deg.c and sparse_missing.c, all pairs, all starts, all s > 0, w, m > 0, delta > 0.", "why_tests_cant": "The probability is over all runs, and the bound holds for all numbers of samples; a test sees one run, and its target sums over all divisions.", "anchors": ["src/missing.c:LinkScore", "src/missing.c:GibbsLinkScore", "src/missing.c:LSMultiLinkScoreKState", "src/recommend.c:MultiLinkScoreKState", "src/recommend.c:MultiLinkScore2State", "src/recommend.c:GibbsMultiLinkScoreKState", "src/multiblock.c", "src/only_deg.c", "src/sparse_missing.c"]}
{"id": "C186", "title": "The finite resolution of the random numbers changes the scores by an amount inverse to the number of values", "statement": "With a generator that gives k/M with k < M equally likely, every node and label is chosen for M/n values to within one and a move is accepted for M times its probability to within one; an attempt changes no mean by more than 6n/M times the spread of the function, a heat-bath sweep none by more than 4n^2/M, and after many attempts or sweeps the mean of a score is within C/M of the posterior probability, C not depending on M. With two nodes the score is the posterior probability at all times.", "quantifier": "All simple networks with three nodes or more (one or more for the heat bath), all sets of ratings with three nodes or more in each set (one or more for the heat bath), all M of at least 4, all pairs, all starts, all numbers of attempts or sweeps, the samplers of missing.c, multiblock.c, only_deg.c, sparse_missing.c and recommend.c.", "why_tests_cant": "The effect of 32-bit random numbers is far below what the noise of any number of runs could show; the bound compares the distribution over all runs with a sum over all divisions.", "anchors": ["src/missing.c:LinkScoreMCStep", "src/missing.c:LinkScore", "src/missing.c:LSMultiLinkScoreKState", "src/multiblock.c", "src/only_deg.c", "src/missing.c:GibbsLinkScore", "src/sparse_missing.c", "src/recommend.c:MultiLinkScoreKState", "src/recommend.c:MultiLinkScore2State", "src/recommend.c:GibbsMultiLinkScoreKState"]}
{"id": "C187", "title": "With random numbers of finite resolution the scores are accurate with a probability that grows with the samples and the resolution", "statement": "For every network there is a constant C such that with a generator of M values the average of the scores of a pair over m samples, taken every s steps after w steps from any start, differs from the posterior probability by delta or more with probability at most C (1/m + 1/M) / delta^2.", "quantifier": "All simple networks and sets of ratings (three nodes or more in each set for the Metropolis samplers), all samplers of missing.c, recommend.c, multiblock.c, only_deg.c and sparse_missing.c, all M of at least 4, all pairs, all starts, all s > 0, w, m > 0, delta > 0.", "why_tests_cant": "The probability is over all runs with the actual resolution of the generator; a test sees one run, and its target sums over all divisions.", "anchors": ["src/missing.c:LinkScore", "src/missing.c:GibbsLinkScore", "src/missing.c:LSMultiLinkScoreKState", "src/recommend.c:MultiLinkScoreKState", "src/recommend.c:MultiLinkScore2State", "src/recommend.c:GibbsMultiLinkScoreKState", "src/multiblock.c", "src/only_deg.c", "src/sparse_missing.c"]}
