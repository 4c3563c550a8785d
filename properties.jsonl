{"id": "C01", "title": "Counts are conserved down the hierarchy", "statement": "After any history of successful ifit calls on a CobwebTree, for every concept that has children, its count equals the sum of its children's counts, and for every attribute a and value v the number of times it recorded a=v equals the sum over its children.", "quantifier": "every finite history of ifit calls, every instance, every outcome of the random tie-breaks, every node of the resulting tree", "why_tests_cant": "The tree shape is chosen by a heuristic with random tie-breaks over an unbounded history; tests check one 40-instance random run.", "anchors": ["concept_formation/cobweb.py:CobwebTree.cobweb", "concept_formation/cobweb.py:CobwebNode.increment_counts", "concept_formation/cobweb.py:CobwebNode.merge", "concept_formation/cobweb.py:CobwebNode.split", "concept_formation/tests/test_cobweb.py:verify_counts"]}
{"id": "C02", "title": "The root summarises exactly the fitted history", "statement": "After any history of successful ifit calls, root.count is the number of calls and root.av_counts[a][v] is exactly the number of fitted instances with a=v (absent when that number is 0), independently of the order of the calls and of the random choices.", "quantifier": "every history, every order of it, every random outcome", "why_tests_cant": "Order independence and exactness quantify over all permutations of unbounded histories.", "anchors": ["concept_formation/cobweb.py:CobwebTree.ifit", "concept_formation/cobweb.py:CobwebNode.increment_counts"]}
{"id": "C03", "title": "Leaves partition the fitted instances into identical groups", "statement": "After any history, the fitted instances are distributed over the leaves so that every fitted instance is in exactly one leaf, every leaf's table is exactly the table of its own instances, and any two instances in the same leaf agree on every non-hidden attribute.", "quantifier": "every history, every random outcome, every leaf", "why_tests_cant": "No finite test covers all histories; a single mis-filed instance is invisible in aggregate counts.", "anchors": ["concept_formation/cobweb.py:CobwebTree.cobweb", "concept_formation/cobweb.py:CobwebNode.is_exact_match"]}
{"id": "C04", "title": "ifit returns the leaf that stores the instance", "statement": "Whenever ifit(instance) returns, the returned concept is a leaf of the tree as it is after the call, it exactly matches the instance (is_exact_match is true) and gives probability 1 to every non-hidden attribute value of the instance.", "quantifier": "every reachable tree, every instance, every random outcome", "why_tests_cant": "The returned node goes through fringe splits, merges and splits chosen at run time.", "anchors": ["concept_formation/cobweb.py:CobwebTree.ifit", "concept_formation/cobweb.py:CobwebTree.cobweb"]}
{"id": "C05", "title": "Every internal concept has at least two children", "statement": "In every reachable tree each node has either no children or at least two (relied on by k_cluster's error message and by the clustering functions).", "quantifier": "every history, every random outcome, every node", "why_tests_cant": "A violation needs a particular merge/split sequence.", "anchors": ["concept_formation/cobweb.py:CobwebNode.merge", "concept_formation/cobweb.py:CobwebNode.split", "concept_formation/cluster.py:k_cluster"]}
{"id": "C06", "title": "ifit and categorize always terminate", "statement": "The sorting loop of ifit performs at most as many iterations as the tree has nodes, and the categorize loop at most as many as the tree has nodes; neither can loop forever, for any tree (even one not built by ifit), instance and random outcome.", "quantifier": "every tree, instance and random outcome", "why_tests_cant": "Termination is not testable; merge adds a node and split re-runs the loop on the same node.", "anchors": ["concept_formation/cobweb.py:CobwebTree.cobweb", "concept_formation/cobweb.py:CobwebTree._cobweb_categorize", "concept_formation/cobweb.py:CobwebNode.get_best_operation"]}
{"id": "C07", "title": "Fitting valid instances never raises", "statement": "Fitting and categorizing any sequence of instances that pass the sanity check never raises (apart from an exact tie of all sort keys including the random number).", "quantifier": "every history of sane instances, every random outcome", "why_tests_cant": "An exception depends on a particular earlier history; one instance can make all later calls fail.", "anchors": ["concept_formation/cobweb.py:CobwebNode.expected_correct_guesses", "concept_formation/cobweb.py:CobwebTree.ifit", "concept_formation/cobweb.py:CobwebNode.two_best_children"]}
{"id": "C08", "title": "Concept ids are unique within a tree", "statement": "In every reachable tree no two nodes carry the same concept_id, so the labels 'Concept'+id identify nodes; ids used once are never reused by later ifit calls.", "quantifier": "every history, every random outcome, every pair of nodes", "why_tests_cant": "Uniqueness over unbounded histories with node creation, merging and splitting.", "anchors": ["concept_formation/cobweb.py:CobwebNode.gensym", "concept_formation/cobweb.py:CobwebNode.__init__", "concept_formation/cluster.py:cluster_iter"]}
{"id": "C09", "title": "fit incorporates every instance exactly iterations times", "statement": "tree.fit(instances, iterations=n) makes the root summarise each given instance exactly n times more, whatever the shuffles, and does not modify the caller's list.", "quantifier": "every list, every n, every permutation the shuffles may produce, every starting tree", "why_tests_cant": "Quantifies over all shuffles.", "anchors": ["concept_formation/cobweb.py:CobwebTree.fit"]}
{"id": "C10", "title": "categorize and infer_missing do not modify the tree", "statement": "categorize(instance) and infer_missing(instance) leave every node of the tree (count, table, children, parent links) unchanged and categorize returns a leaf of the tree that is reached from the root by always moving to a child of maximal category utility.", "quantifier": "every tree, instance, random outcome", "why_tests_cant": "The functions build temporary nodes that share references with the tree; non-interference must hold for every input.", "anchors": ["concept_formation/cobweb.py:CobwebTree.categorize", "concept_formation/cobweb.py:CobwebTree._cobweb_categorize", "concept_formation/cobweb.py:CobwebNode.shallow_copy"]}
{"id": "C11", "title": "Relative CU ranks insertions exactly like CU", "statement": "For every node with children, instance and child, the category utility of inserting into that child equals relative_cu_for_insert/(count+1)/n + compute_relative_CU_const; hence two_best_children returns a child that maximises cu_for_insert, ties broken by size, together with that maximal value, and a second best among the others.", "quantifier": "every node, instance, child and random outcome", "why_tests_cant": "The documented algebraic identity and argmax hold for all tables.", "anchors": ["concept_formation/cobweb.py:CobwebNode.relative_cu_for_insert", "concept_formation/cobweb.py:CobwebNode.compute_relative_CU_const", "concept_formation/cobweb.py:CobwebNode.cu_for_insert", "concept_formation/cobweb.py:CobwebNode.two_best_children"]}
{"id": "C12", "title": "get_best_operation returns an eligible operation of maximal category utility", "statement": "The returned operation is one of the possible_ops that is applicable (merge only with more than two children and a second best, split only when the best child has children), the returned score is the score of that operation and no applicable operation has a higher score; with no best child it raises ValueError.", "quantifier": "every node, instance, best pair, set of possible operations and random outcome", "why_tests_cant": "Argmax with random ties over all inputs.", "anchors": ["concept_formation/cobweb.py:CobwebNode.get_best_operation"]}
{"id": "C13", "title": "The cu_for_* functions predict the category utility of the real operation", "statement": "cu_for_insert, cu_for_new_child, cu_for_merge, cu_for_split and cu_for_fringe_split return exactly the category_utility that the node has after actually performing the corresponding operation (with the instance added where the operation adds it).", "quantifier": "every node with a well-formed table, every instance and choice of children", "why_tests_cant": "Equality of two computations for all tables.", "anchors": ["concept_formation/cobweb.py:CobwebNode.cu_for_insert", "concept_formation/cobweb.py:CobwebNode.cu_for_new_child", "concept_formation/cobweb.py:CobwebNode.cu_for_merge", "concept_formation/cobweb.py:CobwebNode.cu_for_split", "concept_formation/cobweb.py:CobwebNode.cu_for_fringe_split"]}
{"id": "C14", "title": "Category utility lies in [0, 1/n] on consistent nodes", "statement": "For every node of a reachable CobwebTree with n children, category_utility is at least 0 and at most 1/n; it is 0.0 for a leaf.", "quantifier": "every reachable node", "why_tests_cant": "An inequality (convexity) over all tables.", "anchors": ["concept_formation/cobweb.py:CobwebNode.category_utility", "concept_formation/cobweb.py:CobwebNode.expected_correct_guesses"]}
{"id": "C15", "title": "Expected correct guesses is a rate in (0, 1]", "statement": "For every reachable node with a visible attribute, expected_correct_guesses is > 0 and <= 1, and equals 1 on every leaf.", "quantifier": "every reachable node", "why_tests_cant": "Bound over all tables.", "anchors": ["concept_formation/cobweb.py:CobwebNode.expected_correct_guesses"]}
{"id": "C16", "title": "Concept probabilities form a distribution", "statement": "At every reachable concept and attribute, probability(attr, v) is in [0,1] for every v including None, the probabilities of all recorded values plus None add up to 1, and get_weighted_values lists exactly those probabilities with weights that are non-negative and sum to 1 (allow_none=True).", "quantifier": "every reachable node, attribute, value", "why_tests_cant": "Summation identity for all tables.", "anchors": ["concept_formation/cobweb.py:CobwebNode.probability", "concept_formation/cobweb.py:CobwebNode.get_weighted_values"]}
{"id": "C17", "title": "predict returns a most likely / possible value", "statement": "predict(attr,'most likely') returns a value (or None) whose probability is maximal among all candidates; predict(attr,'sampled') only returns a value of positive probability, and the set of random draws that select a value has measure equal to its share of the weight; with allow_none=False a known attribute is never predicted as None; an unknown choice function raises; unknown attributes predict None.", "quantifier": "every reachable node, attribute, flag and random draw", "why_tests_cant": "Quantifies over random draws and all tables.", "anchors": ["concept_formation/cobweb.py:CobwebNode.predict", "concept_formation/utils.py:most_likely_choice", "concept_formation/utils.py:weighted_choice"]}
{"id": "C18", "title": "infer_missing only completes", "statement": "infer_missing returns an instance that keeps every given attribute value, adds only attributes recorded in the categorised concept with a value recorded there, with allow_none=False fills every recorded attribute, and does not modify the argument.", "quantifier": "every reachable tree, instance, choice function, flag and random outcome", "why_tests_cant": "All inputs and random outcomes.", "anchors": ["concept_formation/cobweb.py:CobwebTree.infer_missing"]}
{"id": "C19", "title": "Hidden attributes never influence concept formation", "statement": "Two histories of instances that differ only in hidden attributes (names beginning with '_') produce trees of the same shape with the same concept ids and the same tables on non-hidden attributes, given the same random numbers.", "quantifier": "every pair of histories, every random stream", "why_tests_cant": "A hyperproperty over pairs of unbounded histories.", "anchors": ["concept_formation/cobweb.py:CobwebNode.attrs", "concept_formation/cobweb.py:CobwebNode.is_exact_match", "docs/instance_representation.rst"]}
{"id": "C20", "title": "log_likelihood of a contained leaf is defined and never positive", "statement": "For every concept of a reachable tree and every leaf below it, log_likelihood raises no exception and is at most 0.", "quantifier": "every reachable tree, every ancestor/leaf pair", "why_tests_cant": "log(0) depends on the relation between two tables.", "anchors": ["concept_formation/cobweb.py:CobwebNode.log_likelihood"]}
{"id": "C21", "title": "output_json and num_concepts describe the whole tree", "statement": "output_json contains exactly one object per node with its name, size, table and children in order; num_concepts is the number of nodes; string rendering of attributes and values loses nothing when their string forms are distinct.", "quantifier": "every tree", "why_tests_cant": "All trees.", "anchors": ["concept_formation/cobweb.py:CobwebNode.output_json", "concept_formation/cobweb.py:CobwebNode.num_concepts"]}
{"id": "C22", "title": "Parent links agree with the hierarchy", "statement": "In every reachable tree, root.parent is None, every child's parent is the node that lists it, every node appears in exactly one children list, depth() is the number of edges to the root, and a.is_parent(b) holds exactly when b is in the subtree rooted at a (including a itself).", "quantifier": "every history, random outcome and pair of nodes", "why_tests_cant": "Pointer consistency under in-place restructuring.", "anchors": ["concept_formation/cobweb.py:CobwebTree.cobweb", "concept_formation/cobweb.py:CobwebNode.merge", "concept_formation/cobweb.py:CobwebNode.split", "concept_formation/cobweb.py:CobwebNode.depth", "concept_formation/cobweb.py:CobwebNode.is_parent"]}
{"id": "C23", "title": "Rejected instances have no effect", "statement": "ifit, categorize and infer_missing raise ValueError for any instance with an attribute that is unhashable or cannot be indexed, or a value that is unhashable or None, and in that case the tree is unchanged; every other instance passes the check.", "quantifier": "every Python-dictionary-like input", "why_tests_cant": "Input space is unbounded.", "anchors": ["concept_formation/cobweb.py:CobwebTree._sanity_check_instance", "concept_formation/cobweb.py:CobwebTree.ifit"]}
{"id": "C24", "title": "Results do not depend on how attributes or values are spelled or ordered", "statement": "Reordering the keys of the instances, or renaming values by an injective function per attribute, or renaming attributes injectively keeping hidden ones hidden, yields the same tree up to that renaming, given the same random numbers.", "quantifier": "every history, every injective renaming, every random stream", "why_tests_cant": "Hyperproperty over pairs of runs.", "anchors": ["concept_formation/cobweb.py:CobwebTree.cobweb", "concept_formation/cobweb.py:CobwebNode.expected_correct_guesses"]}
{"id": "C25", "title": "ContinuousValue computes exact count, mean and squared error", "statement": "After update_batch(xs) on a fresh ContinuousValue, num is len(xs), mean is the arithmetic mean and meanSq is the sum of squared deviations from it (over exact arithmetic), whatever the order of xs; biased_std equals utils.std(xs).", "quantifier": "every non-empty list of numbers and every permutation", "why_tests_cant": "Induction over unbounded lists.", "anchors": ["concept_formation/continuous_value.py:ContinuousValue.update", "concept_formation/continuous_value.py:ContinuousValue.update_batch", "concept_formation/utils.py:std"]}
{"id": "C26", "title": "Combining two ContinuousValues equals observing both samples", "statement": "combine on the accumulators of xs and ys gives the accumulator of xs followed by ys; so combine is commutative and associative on observed accumulators, and a fresh accumulator is neutral; combining two empty accumulators raises ZeroDivisionError.", "quantifier": "every pair of sample lists", "why_tests_cant": "Unbounded lists.", "anchors": ["concept_formation/continuous_value.py:ContinuousValue.combine"]}
{"id": "C27", "title": "unbiased_std is zero exactly on constant samples and is scale equivariant", "statement": "unbiased_std is >= 0, is 0 iff fewer than two samples or all samples equal, multiplies by |a| when every sample x becomes a*x+b, and never raises on an observed accumulator.", "quantifier": "every sample list, every a, b", "why_tests_cant": "Unbounded lists and the c4 lookup table.", "anchors": ["concept_formation/continuous_value.py:ContinuousValue.unbiased_std", "concept_formation/utils.py:c4"]}
{"id": "C28", "title": "The Gaussian overlap is a symmetric score in (0, 1]", "statement": "integral_of_gaussian_product(a,b) equals integral_of_gaussian_product(b,a), is > 0 and never exceeds 1.", "quantifier": "every pair of accumulators", "why_tests_cant": "Real-analytic bound.", "anchors": ["concept_formation/continuous_value.py:ContinuousValue.integral_of_gaussian_product"]}
{"id": "C29", "title": "Cobweb/3 trees conserve counts and numeric summaries", "statement": "After any history of successful Cobweb3Tree.ifit calls, C01-C05 and C08 hold with numeric attributes: at every node each numeric attribute's accumulator is exactly the count, mean and squared error of the numbers stored below that node.", "quantifier": "every history of mixed nominal/numeric instances, every random outcome, every node", "why_tests_cant": "Unbounded histories; merge combines accumulators, insert updates them.", "anchors": ["concept_formation/cobweb3.py:Cobweb3Node.increment_counts", "concept_formation/cobweb3.py:Cobweb3Node.update_counts_from_node", "concept_formation/cobweb3.py:Cobweb3Tree.ifit"]}
{"id": "C30", "title": "Cobweb/3 expected correct guesses never exceeds 1", "statement": "For every reachable Cobweb/3 node with a visible attribute, expected_correct_guesses is > 0 and <= 1 whatever the scaling parameter.", "quantifier": "every reachable node, every scaling setting", "why_tests_cant": "The docstring's guarantee is an inequality over reals.", "anchors": ["concept_formation/cobweb3.py:Cobweb3Node.expected_correct_guesses"]}
{"id": "C31", "title": "Cobweb/3 on nominal data is Cobweb", "statement": "On histories whose values are all non-numeric, Cobweb3Tree builds the same tree (shape, ids, tables, returned concepts) as CobwebTree given the same random numbers.", "quantifier": "every nominal history and random stream", "why_tests_cant": "Equivalence of two classes over all histories.", "anchors": ["concept_formation/cobweb3.py:Cobweb3Node", "concept_formation/cobweb.py:CobwebNode"]}
{"id": "C32", "title": "With scaling on, concept formation is invariant to units", "statement": "If scaling is enabled and every value of the numeric attributes sharing a scale is replaced by a*x+b with a>0, Cobweb3Tree builds the same tree shape with the same ids and nominal counts, given the same random numbers.", "quantifier": "every history, every positive affine change of units, every random stream", "why_tests_cant": "Hyperproperty over pairs of runs.", "anchors": ["concept_formation/cobweb3.py:Cobweb3Tree.update_scales", "concept_formation/cobweb3.py:Cobweb3Node.expected_correct_guesses"]}
{"id": "C33", "title": "Cobweb/3 probability is in [0,1]", "statement": "At every reachable Cobweb/3 node, probability(attr, val) for nominal, numeric or None val lies in [0,1], and predict('most likely') on a numeric attribute returns the mean of the values stored in the concept.", "quantifier": "every reachable node, attribute, value, scaling setting", "why_tests_cant": "Real inequality for all parameters.", "anchors": ["concept_formation/cobweb3.py:Cobweb3Node.probability", "concept_formation/cobweb3.py:Cobweb3Node.predict"]}
{"id": "C34", "title": "attr_scales is the exact summary of all numbers fitted", "statement": "After any history, attr_scales[k] accumulates exactly the numeric values fitted under attributes whose inner name is k; clear() resets it.", "quantifier": "every history", "why_tests_cant": "Unbounded histories.", "anchors": ["concept_formation/cobweb3.py:Cobweb3Tree.update_scales", "concept_formation/cobweb3.py:Cobweb3Tree.get_inner_attr", "concept_formation/cobweb3.py:Cobweb3Tree.clear"]}
{"id": "C35", "title": "cluster_iter yields one label per instance and validates its arguments", "statement": "cluster_iter raises ValueError when minsplit < 1, minsplit > maxsplit or instances is empty; otherwise it yields at most maxsplit-minsplit+1 clusterings, each with exactly one label per instance, each label naming a child of the (split) root or the root itself when it is a leaf.", "quantifier": "every tree, instances, bounds, heuristic", "why_tests_cant": "All inputs.", "anchors": ["concept_formation/cluster.py:cluster_iter", "concept_formation/cluster.py:cluster"]}
{"id": "C36", "title": "Successive clusterings refine each other by splitting one cluster", "statement": "Each clustering yielded by cluster_iter refines the previous one: two instances with equal labels afterwards had equal labels before, and exactly one previous cluster is replaced by its children.", "quantifier": "every tree, instances, heuristic, step", "why_tests_cant": "Unbounded trees.", "anchors": ["concept_formation/cluster.py:cluster_iter", "concept_formation/cobweb.py:CobwebNode.split"]}
{"id": "C37", "title": "minsplit skips the first clusterings", "statement": "cluster_iter with minsplit=m yields the m-th, (m+1)-th, ... clusterings that minsplit=1 would yield (claimed by the docstring).", "quantifier": "every tree, instances and m", "why_tests_cant": "Relates two runs for all inputs.", "anchors": ["concept_formation/cluster.py:cluster_iter", "concept_formation/cluster.py:cluster"]}
{"id": "C38", "title": "k_cluster returns at most k clusters", "statement": "k_cluster(tree, instances, k) with k >= 2 and a non-empty list returns one label per instance using at most k distinct labels; k < 2 raises ValueError.", "quantifier": "every tree, non-empty instances, k", "why_tests_cant": "All inputs.", "anchors": ["concept_formation/cluster.py:k_cluster"]}
{"id": "C39", "title": "cluster_split_search returns a clustering of minimal heuristic", "statement": "cluster_split_search returns the first clustering among those yielded whose heuristic is minimal (the all-root labelling if none is yielded or all are infinite).", "quantifier": "every tree, instances, heuristic, bounds", "why_tests_cant": "All inputs.", "anchors": ["concept_formation/cluster.py:cluster_split_search"]}
{"id": "C40", "title": "depth_labels is a rectangular, nested labelling", "statement": "depth_labels on a non-empty list returns rows of equal length len(instances), as many rows as the maximal depth of a returned concept + 1; row 0 is the root for everyone, the last row is each instance's own concept, and labels at row d+1 determine the label at row d.", "quantifier": "every tree, instances, mode", "why_tests_cant": "Unbounded trees.", "anchors": ["concept_formation/cluster.py:depth_labels"]}
{"id": "C41", "title": "The clustering criteria compute their documented formulas", "statement": "CU(cluster, leaves) is minus the category utility of the partition of the leaves induced by the clusters; AIC, BIC and AICc return 2k-2ln(L), k ln(n)-2 ln(L) and AIC + 2k(k+1)/(n-k-1) (infinity when n-k<=1) where k counts 1 per nominal value and 2 per numeric value of the distinct clusters' visible attributes.", "quantifier": "every clustering and leaves list", "why_tests_cant": "All inputs.", "anchors": ["concept_formation/cluster.py:CU", "concept_formation/cluster.py:AIC", "concept_formation/cluster.py:AICc", "concept_formation/cluster.py:BIC"]}
{"id": "C42", "title": "weighted_choice selects proportionally to weight", "statement": "For non-negative weights with positive total and any draw r in [0,total), weighted_choice returns the option whose cumulative weight interval contains r (so each option is selected on a set of draws of length exactly its weight and zero-weight options never); it raises ValueError on an empty list and when it meets a negative weight.", "quantifier": "every list of options and every draw", "why_tests_cant": "Distributional claim over a continuum of draws.", "anchors": ["concept_formation/utils.py:weighted_choice"]}
{"id": "C43", "title": "most_likely_choice returns an option of maximal weight", "statement": "most_likely_choice returns an element of the list whose weight is maximal, for every outcome of the tie-break; it raises ValueError exactly when the list is empty or some weight is negative.", "quantifier": "every list and random outcome", "why_tests_cant": "All lists.", "anchors": ["concept_formation/utils.py:most_likely_choice"]}
{"id": "C44", "title": "mean, std and c4 compute their formulas", "statement": "mean and std equal the arithmetic mean and population standard deviation on every non-empty list and raise ValueError on the empty list; c4(n) raises for n<=1, is in (0,1] and is non-decreasing for integers n>=2, and is 1.0 from 30 on.", "quantifier": "every list, every integer n", "why_tests_cant": "All lists; table plus unbounded tail.", "anchors": ["concept_formation/utils.py:mean", "concept_formation/utils.py:std", "concept_formation/utils.py:c4"]}
{"id": "C45", "title": "A pipeline undoes its transforms in reverse order", "statement": "If every stage's undo_transform inverts its transform, then Pipeline.undo_transform inverts Pipeline.transform for any number of stages.", "quantifier": "every list of preprocessors and instance", "why_tests_cant": "Induction over pipelines of any length.", "anchors": ["concept_formation/preprocessor.py:Pipeline"]}
{"id": "C46", "title": "Tuplizer round-trips relations", "statement": "For every nested relation whose names are non-empty and contain no space or parenthesis and do not parse as numbers, tuplizing its string form returns the relation; undo_transform(transform(i)) = i for such instances.", "quantifier": "every nested relation of any depth and arity", "why_tests_cant": "Parser correctness over an infinite grammar.", "anchors": ["concept_formation/preprocessor.py:Tuplizer"]}
{"id": "C47", "title": "Flattener round-trips structured instances", "statement": "For every instance built of non-empty components with string attribute names (other than '_'), undo_transform(transform(instance)) equals instance, and the flattened instance has no dictionary values and keeps every atomic value under a path-determined name; attributes inside hidden components or hidden themselves stay hidden.", "quantifier": "every nesting depth and shape", "why_tests_cant": "Structural induction over unbounded nesting.", "anchors": ["concept_formation/preprocessor.py:Flattener"]}
{"id": "C48", "title": "NameStandardizer renames apart and can be undone", "statement": "transform renames the variables of an instance by an injective map onto fresh names consistently in attributes and relations (structure unchanged), and undo_transform restores the original instance.", "quantifier": "every instance, every fresh name supply", "why_tests_cant": "All nested instances.", "anchors": ["concept_formation/preprocessor.py:NameStandardizer", "concept_formation/preprocessor.py:rename_relation"]}
{"id": "C49", "title": "SubComponentProcessor round-trips flattened instances", "statement": "Flattening, extracting sub-components and undoing both returns the original instance, for structured instances with distinct object names.", "quantifier": "every nesting", "why_tests_cant": "Unbounded nesting.", "anchors": ["concept_formation/preprocessor.py:SubComponentProcessor", "concept_formation/preprocessor.py:Flattener"]}
{"id": "C50", "title": "ListProcessor round-trips lists", "statement": "undo_transform(transform(instance)) restores every list with its order for lists of any length and nesting.", "quantifier": "every instance with lists", "why_tests_cant": "Unbounded lengths and nesting.", "anchors": ["concept_formation/preprocessor.py:ListProcessor", "concept_formation/preprocessor.py:ExtractListElements", "concept_formation/preprocessor.py:ListsToRelations"]}
{"id": "C51", "title": "Numeric/nominal converters convert exactly the targeted values", "statement": "NumericToNominal leaves no number under a targeted attribute (at any depth), changes nothing else and is idempotent; NominalToNumeric leaves only numbers under targeted attributes, with on_fail deciding between raising, dropping and 0.0.", "quantifier": "every instance, every target list", "why_tests_cant": "All nested instances.", "anchors": ["concept_formation/preprocessor.py:NumericToNominal", "concept_formation/preprocessor.py:NominalToNumeric"]}
{"id": "C52", "title": "Sanitizer produces instances the trees accept", "statement": "For every dictionary input the output of Sanitizer(spec).transform passes the corresponding tree's sanity check, and sanitizing twice is the same as once.", "quantifier": "every Python-like dictionary", "why_tests_cant": "Unbounded input space.", "anchors": ["concept_formation/preprocessor.py:Sanitizer", "concept_formation/trestle.py:TrestleTree._sanity_check_instance"]}
{"id": "C53", "title": "ObjectVariablizer marks exactly the component attributes", "statement": "transform prefixes with '?' exactly the (targeted) attributes with component values that are not already variables, at every depth, changes no value, and keeps relations consistent with the renamed objects.", "quantifier": "every instance, every target list", "why_tests_cant": "All nested instances.", "anchors": ["concept_formation/preprocessor.py:ObjectVariablizer"]}
{"id": "C54", "title": "Structure mapping is reversible", "statement": "StructureMapper.undo_transform(transform(target)) = target for every flat target whose variables do not occur in the base, whatever mapping the search returns.", "quantifier": "every target, base and search outcome", "why_tests_cant": "Quantifies over all outcomes of two external search procedures.", "anchors": ["concept_formation/structure_mapper.py:StructureMapper", "concept_formation/structure_mapper.py:rename_flat", "concept_formation/structure_mapper.py:flat_match"]}
{"id": "C55", "title": "The mapping search never maps two objects to one", "statement": "Every state reachable from the initial Hungarian mapping by the successor operations is an injective mapping defined on exactly the instance's variables, sending each to itself or to a base variable, and its unmapped set is exactly the base variables not used.", "quantifier": "every initial assignment, every sequence of successor steps", "why_tests_cant": "Unbounded search sequences.", "anchors": ["concept_formation/structure_mapper.py:StructureMappingOptProblem", "concept_formation/structure_mapper.py:hungarian_mapping"]}
{"id": "C56", "title": "Trestle variable names never collide with the tree's", "statement": "For every history of TrestleTree.ifit/categorize/infer_missing calls, the variables of a standardised instance are disjoint from the variables in the root's table, so flat_match never raises its collision exception.", "quantifier": "every history, every search outcome", "why_tests_cant": "Unbounded histories with renaming.", "anchors": ["concept_formation/trestle.py:TrestleTree.trestle", "concept_formation/trestle.py:TrestleTree.gensym", "concept_formation/structure_mapper.py:flat_match"]}
{"id": "C57", "title": "Trestle trees conserve counts", "statement": "C01-C05 hold for TrestleTree with respect to the preprocessed instances it fits, for every outcome of structure mapping.", "quantifier": "every history, every mapping outcome", "why_tests_cant": "Unbounded histories.", "anchors": ["concept_formation/trestle.py:TrestleTree.trestle"]}
{"id": "C58", "title": "DummyTree predicts from the overall distribution", "statement": "A DummyTree always consists of one node, which summarises exactly all fitted (preprocessed) instances; categorize returns it and changes nothing.", "quantifier": "every history", "why_tests_cant": "Unbounded histories.", "anchors": ["concept_formation/dummy.py:DummyTree"]}
{"id": "C59", "title": "incremental_evaluation scores before fitting and returns the documented table", "statement": "incremental_evaluation returns one row per run, row r has an entry per instance used, the i-th entry is the score of the i-th instance in a tree fitted with exactly the first i instances of that run; the row length is run_length (documented).", "quantifier": "every tree type, list, run length, runs, score function and shuffle", "why_tests_cant": "Quantifies over shuffles and histories.", "anchors": ["concept_formation/evaluation.py:incremental_evaluation"]}
{"id": "C60", "title": "Scoring functions never see the target attribute", "statement": "probability, error, absolute_error and squared_error categorize the instance with the target attribute removed and do not modify the caller's instance; absolute_error >= 0, squared_error is the square of error, and nominal error is 0 or 1.", "quantifier": "every tree, instance, attribute, value", "why_tests_cant": "All inputs.", "anchors": ["concept_formation/evaluation.py:probability", "concept_formation/evaluation.py:error", "concept_formation/evaluation.py:absolute_error", "concept_formation/evaluation.py:squared_error"]}
{"id": "C61", "title": "Visualisation trimming keeps exactly the intended part of the tree", "statement": "_trim_leaves removes exactly the leaves; visualize_clusters shows the tree cut at the given clusters, whether given as labels or as concepts.", "quantifier": "every tree and clustering", "why_tests_cant": "All trees.", "anchors": ["concept_formation/visualize.py:_trim_leaves", "concept_formation/visualize.py:_trim_to_clusters", "concept_formation/visualize.py:visualize_clusters"]}
{"id": "C62", "title": "Dataset loaders return the requested number of instances", "statement": "A loader called with num_instances=n returns the first n instances of the file (all when n is None or exceeds the file).", "quantifier": "every file content and n", "why_tests_cant": "All n.", "anchors": ["concept_formation/datasets.py:_load_json"]}
{"id": "C63", "title": "Cobweb/3 fitting and categorising terminate and never raise", "statement": "On a Cobweb3Tree whose fitted instances all have a visible attribute, ifit of such an instance and categorize of any instance terminate and raise nothing, when the random numbers drawn are distinct.", "quantifier": "every history of mixed instances, every instance, every stream of distinct random numbers", "why_tests_cant": "Unbounded histories; the descent loop has no static bound.", "anchors": ["concept_formation/cobweb3.py:Cobweb3Tree.ifit", "concept_formation/cobweb.py:CobwebTree.cobweb", "concept_formation/cobweb.py:CobwebTree._cobweb_categorize"]}
{"id": "C64", "title": "Cobweb/3: hidden attributes do not influence concept formation", "statement": "Two sequences of Cobweb3Tree.ifit calls (and a final categorize) whose instances differ only in hidden attributes, with the same random numbers, build trees of the same shape, ids and visible tables and return the same concepts.", "quantifier": "every history, every hidden data, every random stream and scaling setting", "why_tests_cant": "Hyperproperty over pairs of runs.", "anchors": ["concept_formation/cobweb3.py:Cobweb3Tree.update_scales", "concept_formation/cobweb3.py:Cobweb3Node.attrs", "concept_formation/cobweb3.py:Cobweb3Node.expected_correct_guesses"]}
{"id": "C65", "title": "Cobweb/3 does not depend on names, key order or the origin of numeric scales", "statement": "Injective renaming of attributes (keeping hidden ones hidden), of nominal values and of scale names, any reordering of the keys of the instances, and adding a constant to all numbers that share a scale change nothing but the names in the resulting tree, given the same random numbers.", "quantifier": "every history, every renaming and shift, every random stream and scaling setting", "why_tests_cant": "Hyperproperty over pairs of runs and all renamings.", "anchors": ["concept_formation/cobweb3.py:Cobweb3Tree.ifit", "concept_formation/cobweb3.py:Cobweb3Node.expected_correct_guesses", "concept_formation/cobweb3.py:Cobweb3Node.is_exact_match"]}
{"id": "C66", "title": "In-place mutation of node objects computes the tree algorithm", "statement": "After any history of ifit calls, the node objects reachable from tree.root form the hierarchy that the algorithm describes (same concept ids, tables and order of children); a further ifit call raises exactly when the algorithm does, with the same exception, and otherwise returns the node object of the leaf that the algorithm chooses.", "quantifier": "every history, instance, random outcome and every other use of the heap between the calls", "why_tests_cant": "Aliasing and in-place restructuring over unbounded histories.", "anchors": ["concept_formation/cobweb.py:CobwebTree.cobweb", "concept_formation/cobweb.py:CobwebNode.merge", "concept_formation/cobweb.py:CobwebNode.split", "concept_formation/cobweb.py:CobwebNode.shallow_copy", "concept_formation/cobweb3.py:Cobweb3Tree.cobweb"]}
{"id": "C67", "title": "The copy constructor makes a detached copy with consistent links", "statement": "CobwebNode(node) touches no existing object and returns new objects with the same tables and the same shape as the subtree of node; the children of each copied node have that node as their parent.", "quantifier": "every history and every node of the tree", "why_tests_cant": "All trees; pointer consistency.", "anchors": ["concept_formation/cobweb.py:CobwebNode.__init__"]}
{"id": "C68", "title": "Cobweb3 log_likelihood never raises, is at most 0, and has the documented value", "statement": "For any concept of a reachable Cobweb3 tree and any concept at or below it, log_likelihood returns a number; it is the sum over visible attributes of the logarithms of the products of the shares of the outcomes that occur below (with the overlap of the two normal densities for numbers); it is at most 0.", "quantifier": "every reachable Cobweb3 tree, concept and descendant", "why_tests_cant": "Unbounded trees and real arithmetic.", "anchors": ["concept_formation/cobweb3.py:Cobweb3Node.log_likelihood"]}
{"id": "C69", "title": "cluster_iter splits the cluster whose split the heuristic values least", "statement": "Of the clusters of a yielded clustering that have children, the one replaced in the next clustering is one for which the heuristic of the resulting clustering is minimal; the search leaves the tree as it was.", "quantifier": "every tree, instances, heuristic, step", "why_tests_cant": "Unbounded trees.", "anchors": ["concept_formation/cluster.py:cluster_iter"]}
{"id": "C70", "title": "A concept returned by ifit stays a leaf with its name", "statement": "The concept that ifit returns is a leaf of the tree, and fitting any further instance leaves every leaf object a leaf of the tree with the same concept name.", "quantifier": "every reachable tree and instance", "why_tests_cant": "Unbounded histories.", "anchors": ["concept_formation/cobweb.py:CobwebTree.cobweb", "concept_formation/cobweb.py:CobwebNode.create_new_child", "concept_formation/cobweb.py:CobwebNode.split", "concept_formation/cobweb.py:CobwebNode.merge"]}
{"id": "C71", "title": "TrestleTree.ifit and categorize never raise on well-formed structured instances", "statement": "For every history of fitted instances with visible attributes, ifit returns on every instance whose attributes at all depths are non-empty strings or tuples of such, whose values are instances or hashable, and which has a visible leaf attribute; categorize returns even without the last condition (given that the external search returns and no two random numbers coincide).", "quantifier": "every history, instance of any depth, search outcome", "why_tests_cant": "Unbounded histories and nesting.", "anchors": ["concept_formation/trestle.py:TrestleTree.trestle", "concept_formation/trestle.py:TrestleTree._trestle_categorize", "concept_formation/trestle.py:TrestleTree._sanity_check_instance"]}
{"id": "C72", "title": "How large a tree can become", "statement": "After n >= 1 successful ifit calls a tree has at most n leaves, at most 2n-1 concepts and height at most n-1, and at least as many leaves as there are visibly different instances.", "quantifier": "every history for CobwebTree, Cobweb3Tree and TrestleTree", "why_tests_cant": "Unbounded histories.", "anchors": ["concept_formation/cobweb.py:CobwebTree.cobweb", "concept_formation/cobweb.py:CobwebNode.num_concepts", "concept_formation/cobweb3.py:Cobweb3Tree.ifit", "concept_formation/trestle.py:TrestleTree.ifit"]}
{"id": "C73", "title": "Names in attributes and matching attributes", "statement": "contains_component decides whether a name occurs in an attribute at any depth; get_component_names returns exactly the variables (or all parts not starting with an underscore) of the attributes; bind_flat_attr replaces exactly the mapped names; is_partial_match answers True exactly when the mapping can be extended so that the first attribute becomes the second.", "quantifier": "every attribute of any nesting, every mapping", "why_tests_cant": "Unbounded nesting.", "anchors": ["concept_formation/structure_mapper.py:contains_component", "concept_formation/structure_mapper.py:get_component_names", "concept_formation/structure_mapper.py:bind_flat_attr", "concept_formation/structure_mapper.py:is_partial_match", "concept_formation/preprocessor.py:get_attribute_components"]}
{"id": "C74", "title": "mapping_cost is minus the expected correct guesses of the base with the renamed target added", "statement": "For every base concept that summarises instances, target and mapping that keeps variables apart, mapping_cost returns minus the expected correct guesses of the instances of the base together with the target (or the instances a table summarises) renamed by the mapping; the result lies in [-1, 0), and the base is not changed.", "quantifier": "every base, target and mapping of the search", "why_tests_cant": "Unboundedly many concepts and mappings; real-valued formula.", "anchors": ["concept_formation/structure_mapper.py:mapping_cost", "concept_formation/structure_mapper.py:rename_flat", "concept_formation/structure_mapper.py:StructureMappingOptProblem.node_value"]}
{"id": "C75", "title": "The initial mapping of the structure mapper is optimal, and search steps are well-behaved", "statement": "If Munkres' algorithm returns a cheapest assignment, hungarian_mapping returns a one-to-one mapping of all variables of the target, each to itself or a variable of the base, whose sum of single-variable costs is least among all such mappings; search steps never decrease the number of variables mapped into the base; random_successor returns one of the successor states and never raises.", "quantifier": "every cost function, set of names, search state, random number", "why_tests_cant": "Optimality over all mappings of any number of variables.", "anchors": ["concept_formation/structure_mapper.py:hungarian_mapping", "concept_formation/structure_mapper.py:StructureMappingOptProblem.random_successor", "concept_formation/structure_mapper.py:StructureMappingOptProblem.successors", "concept_formation/structure_mapper.py:flat_match"]}
{"id": "C76", "title": "fit fits every instance once per iteration, for every class of trees", "statement": "fit of CobwebTree, Cobweb3Tree and TrestleTree calls ifit on every instance exactly once in each of the iterations, in a rearranged order (the first pass in the given order unless randomize_first); the caller's list is not changed; if a call of ifit raises, exactly what comes before it is fitted; on instances that ifit accepts it does not raise.", "quantifier": "every tree history, list of instances, number of iterations, shuffle", "why_tests_cant": "Unboundedly many histories, passes and permutations.", "anchors": ["concept_formation/cobweb.py:CobwebTree.fit", "concept_formation/cobweb3.py:Cobweb3Tree.ifit", "concept_formation/trestle.py:TrestleTree.ifit"]}
{"id": "C77", "title": "Quadruped animals are well-formed, within their ranges, and can be fitted", "statement": "bellrand returns a number in its range whenever the normal variate is once within a standard deviation; every animal of load_quadruped is a dog, cat, horse or giraffe, as said by the hidden _type, all parts have sizes in the ranges of its kind, kinds differ visibly, legs, neck and head are attached symmetrically and the tail is behind the torso; a TrestleTree fits any such dataset without raising.", "quantifier": "every stream of random numbers, every number of instances", "why_tests_cant": "Random numbers; ranges over the reals; any dataset size.", "anchors": ["concept_formation/data_files/generate_quadruped.py:bellrand", "concept_formation/data_files/generate_quadruped.py:generate_dog", "concept_formation/data_files/generate_quadruped.py:generate_cat", "concept_formation/data_files/generate_quadruped.py:generate_horse", "concept_formation/data_files/generate_quadruped.py:generate_giraffe", "concept_formation/datasets.py:load_quadruped"]}
{"id": "C78", "title": "str(tree) and pretty_print show the whole tree", "statement": "pretty_print gives one line per node, parents before children in order, indented by the depth; it raises only if the text of a node does, never on a reachable tree; the text of a CobwebTree determines the shape, the counts and the tables, whatever the attributes and values, provided their repr ends where a ':' begins; a ContinuousValue shows mean, corrected standard deviation and number of its values.", "quantifier": "every tree, every repr meeting the stated law; every reachable Cobweb3Tree", "why_tests_cant": "Unbounded trees and texts.", "anchors": ["concept_formation/cobweb.py:pretty_print", "concept_formation/cobweb.py:__str__", "concept_formation/cobweb3.py:pretty_print", "concept_formation/continuous_value.py:__repr__"]}
{"id": "C79", "title": "output_json of Cobweb3 describes the whole tree", "statement": "On every reachable Cobweb3Tree whose attribute and value texts are distinct, output_json returns, with for every node its name, the number of its instances, the number of occurrences of every nominal value, mean, corrected standard deviation and number of its numeric values and nothing else, a guid of one of its instances exactly if one has a guid, and the children in order.", "quantifier": "every history of ifit calls, every str function", "why_tests_cant": "Unbounded histories; real statistics.", "anchors": ["concept_formation/cobweb3.py:output_json", "concept_formation/continuous_value.py:output_json"]}
{"id": "C80", "title": "moving_average and avg_lines compute averages", "statement": "moving_average(a, n) with n >= 1 returns len(a)+1-n numbers, the i-th being the average of a[i:i+n], and raises for n = 0 on a non-empty array; avg_lines returns at every position the average of the values with the same x, with symmetric bounds from the sample standard deviation (none for a single value); the averages have the same sum as the values; more values than positions raise IndexError.", "quantifier": "all arrays, all window sizes, any quantile function", "why_tests_cant": "Unbounded arrays of real numbers.", "anchors": ["concept_formation/examples/examples_utils.py:moving_average", "concept_formation/examples/examples_utils.py:avg_lines", "concept_formation/examples/examples_utils.py:mean_confidence_interval"]}
{"id": "C81", "title": "lowess is a robust locally weighted linear regression", "statement": "When lowess returns, every iteration puts at every point the value of the unique line of least weighted squared error, with tricube weights of the distance in units of the ceil(f*n)-th distance and bisquare weights of the previous residual in units of six medians; one iteration returns exactly when around every point there is another x with at most ceil(f*n) points as near, is local, and reproduces a line; two iterations on a line raise; the bounds are symmetric and absent where all x differ.", "quantifier": "all arrays of equal length, all fractions f >= 0, all iteration numbers", "why_tests_cant": "Real arithmetic over unbounded arrays.", "anchors": ["concept_formation/examples/examples_utils.py:lowess"]}
{"id": "C82", "title": "TrestleTree on flat instances is Cobweb3Tree", "statement": "On instances whose attributes are plain strings and whose values are hashable and not None, ifit, categorize and fit of TrestleTree do what Cobweb3Tree does with the same entries in another order: the same exception or the same result, trees of the same shape with the same ids and equal tables, equal scales, the same random numbers to come, and no gensym names used.", "quantifier": "all histories of flat instances, all shuffles, iterations, search results and random numbers", "why_tests_cant": "Needs two implementations to agree on unboundedly long histories.", "anchors": ["concept_formation/trestle.py:trestle", "concept_formation/trestle.py:_trestle_categorize", "concept_formation/cobweb.py:fit"]}
{"id": "C83", "title": "infer_missing of Cobweb3Tree completes without changing", "statement": "infer_missing keeps every given value, adds only values recorded at the leaf that categorize finds (the mean for numbers with 'most likely'), leaves its argument unchanged, and without None fills every attribute of that leaf; with 'most likely' it never raises on trees fitted with visible instances.", "quantifier": "all reachable Cobweb3 trees, all instances, choice functions and random numbers", "why_tests_cant": "Unbounded trees and instances.", "anchors": ["concept_formation/cobweb.py:infer_missing", "concept_formation/cobweb3.py:predict"]}
{"id": "C84", "title": "Cobweb/3 insertion scores and descent", "statement": "In a Cobweb3Tree two_best_children picks the child of maximal category utility, relative_cu_for_insert differs from it by a constant and a positive factor, categorize descends along maximal children to a leaf, and each cu_for_ function returns the category utility of the tree after the real operation.", "quantifier": "all reachable Cobweb3 trees, nodes, instances, scales and random numbers", "why_tests_cant": "Exact equality over the reals on unbounded trees.", "anchors": ["concept_formation/cobweb.py:two_best_children", "concept_formation/cobweb.py:relative_cu_for_insert", "concept_formation/cobweb.py:cu_for_insert", "concept_formation/cobweb3.py:expected_correct_guesses"]}
{"id": "C85", "title": "Range of the category utility of Cobweb/3", "statement": "The category utility of a Cobweb/3 concept with n children lies in [0, 1/n]; it is 0 for leaves, and leaves guess every attribute correctly.", "quantifier": "all reachable Cobweb3 trees and nodes", "why_tests_cant": "Unbounded trees, real arithmetic.", "anchors": ["concept_formation/cobweb.py:category_utility", "concept_formation/cobweb3.py:expected_correct_guesses"]}
{"id": "C86", "title": "infer_missing of TrestleTree completes without changing", "statement": "infer_missing keeps every given attribute, component and relation, changes neither the tree nor the names, adds only attributes of the concept that categorize finds with values recorded there, fills all of them if None is not allowed, and with 'most likely' does not raise.", "quantifier": "all trees, instances, search results and random numbers", "why_tests_cant": "Unbounded trees and instances; combinations of components and plain attributes.", "anchors": ["concept_formation/trestle.py:infer_missing", "concept_formation/preprocessor.py:Flattener", "concept_formation/preprocessor.py:SubComponentProcessor"]}
{"id": "C87", "title": "verify_counts accepts every reachable tree", "statement": "The check verify_counts of the project's tests returns without an exception exactly on the trees in which, at every node with children, the count and the number recorded for every value (for numbers: how many there are) are the sums of the children's and the children have no attribute or value that the node lacks; it passes on every CobwebTree, Cobweb3Tree and TrestleTree that ifit produces.", "quantifier": "all trees; all histories, random choices and search results", "why_tests_cant": "The tests run it on 40 random instances; here every tree.", "anchors": ["concept_formation/tests/test_cobweb.py:verify_counts", "concept_formation/tests/test_cobweb3.py:verify_counts"]}
{"id": "C88", "title": "Misclassification count of the Li and Biswas experiment", "statement": "The number that run_noise_exp computes from a clustering counts one for every instance of the main group of a cluster outside the three largest, and two for every instance that is not of the main group of its cluster (ties in size are broken by the later name). It raises exactly when there are more cluster labels than instances, is at most twice the number of instances, is 0 exactly when there are at most three clusters none of which mixes groups, and does not depend on the order of the instances. Renaming clusters of equal size can change it.", "quantifier": "all clusterings and labellings", "why_tests_cant": "No test; unbounded lists, sorting with ties.", "anchors": ["concept_formation/examples/li_biswas_experiment.py:run_noise_exp"]}
{"id": "C89", "title": "Data and run of the Li and Biswas experiment", "statement": "run_clust_exp builds 180 complete instances, 60 per group, whatever is drawn; without nominal noise f1 determines the group; clustering them with a new Cobweb3Tree never raises and gives one label per instance, so that a round of run_noise_exp returns a count of at most 360. Under noise each group's f1 may take the value of every other group (false for the second group).", "quantifier": "all noise levels, scalings, random draws, shuffles and set orders", "why_tests_cant": "Random data; no test of the script.", "anchors": ["concept_formation/examples/li_biswas_experiment.py:run_clust_exp", "concept_formation/examples/li_biswas_experiment.py:run_noise_exp"]}
{"id": "C90", "title": "The numeric part of expected correct guesses is an integral", "statement": "In every concept of every Cobweb3Tree expected_correct_guesses is the mean over the visible attributes of the summed squared probabilities of the nominal values plus the squared probability of a number times the integral of the squared normal density with the concept's scaled variance plus 1/(4 pi). The three formulas that compare_mse_acc.py plots are such integrals with the variance as it is, bounded below and increased; they are ordered, the first two agree exactly from the acuity on, and the third is the one Cobweb3Node uses.", "quantifier": "all histories and concepts; all standard deviations", "why_tests_cant": "An identity between a formula and an improper integral over all parameters.", "anchors": ["concept_formation/cobweb3.py:Cobweb3Node.expected_correct_guesses", "concept_formation/examples/compare_mse_acc.py:compute"]}
{"id": "C91", "title": "The accumulator of numeric values in floating point", "statement": "With every operation rounded, the mean of floats added one by one lies between the least and the greatest of them; meanSq never becomes negative, so biased_std and unbiased_std do not raise; a constant sample has exactly the constant as mean and exactly zero deviation; counts are exact up to 2^53.", "quantifier": "all lists of floats, all roundings that are monotone and fix the floats (no overflow)", "why_tests_cant": "Rounding depends on all 2^64 values and on the whole sequence of operations.", "anchors": ["concept_formation/continuous_value.py:ContinuousValue.update", "concept_formation/continuous_value.py:ContinuousValue.unbiased_std", "concept_formation/continuous_value.py:ContinuousValue.biased_std"]}
{"id": "C92", "title": "Combining accumulators in floating point", "statement": "With every operation rounded, combining two accumulators that are not both empty never raises, adds the counts, and gives a mean close to the weighted mean and a defined deviation; combining with an empty accumulator is a copy, equal values keep their exact mean and deviation zero, and different values have a positive deviation. (The last three are false: 0.1 three times has another mean after copying, and then a positive deviation; values 2^-600 apart have deviation zero.)", "quantifier": "all accumulators and roundings (no overflow)", "why_tests_cant": "The failures need particular last bits.", "anchors": ["concept_formation/continuous_value.py:ContinuousValue.combine"]}
{"id": "C93", "title": "Rounding errors of the accumulator", "statement": "The mean of n floats bounded by M is off by at most (n+1)(2^-51 M + 2^-1073); each update, each combination and each deviation computed in floating point differs from the exact one by a stated small multiple of the unit roundoff.", "quantifier": "all lists of up to 2^53 floats, all accumulators and roundings (no overflow)", "why_tests_cant": "A bound over all inputs of all lengths.", "anchors": ["concept_formation/continuous_value.py:ContinuousValue.update", "concept_formation/continuous_value.py:ContinuousValue.combine", "concept_formation/continuous_value.py:ContinuousValue.unbiased_std", "concept_formation/continuous_value.py:ContinuousValue.scaled_unbiased_std"]}
{"id": "C94", "title": "Cobweb with any arithmetic", "statement": "Whatever the arithmetic of the scores does (rounding, overflow, nan), as long as sorting only rearranges: the root summarises the history, an internal concept has at least two children and the sums of their counts, ids are distinct, the leaves partition the history into groups of equal instances, ifit ends, returns a leaf matching its instance and leaves the other leaves alone; nothing raises unless a division by zero or a tie raises.", "quantifier": "all histories, hidden attributes, arithmetics (a different one at every call), random numbers", "why_tests_cant": "Tests run one arithmetic and cannot show that the tree does not depend on its accuracy.", "anchors": ["concept_formation/cobweb.py:CobwebTree.cobweb", "concept_formation/cobweb.py:CobwebTree._cobweb_categorize", "concept_formation/cobweb.py:CobwebNode.two_best_children", "concept_formation/cobweb.py:CobwebNode.get_best_operation"]}
{"id": "C95", "title": "Cobweb/3 in floating point", "statement": "With every operation of the accumulators, the scales and the scores rounded: every concept counts the instances, nominal values and numbers of a part of the history, the root of all of it, and internal concepts the sums of their children's counts; the leaves partition the history into groups of equal instances and hold their numbers exactly (mean the number itself, squared error zero); ifit returns a leaf matching its instance and leaves the other leaves alone; attr_scales is the accumulator of the numbers seen; ifit and categorize never divide by zero nor take the root of a negative number; the contribution of an attribute's numbers to the score is at most 1 + 2^-52, which a single number reaches, so the documented bound of 1 is exceeded.", "quantifier": "all histories of float instances, hidden attributes, scalings, roundings (the bound: round to nearest even), orders of the values in a table, random numbers", "why_tests_cant": "Rounding errors depend on every value and on the order of the operations; tests sample a few.", "anchors": ["concept_formation/cobweb3.py:Cobweb3Tree.ifit", "concept_formation/cobweb3.py:Cobweb3Tree.update_scales", "concept_formation/cobweb3.py:Cobweb3Node.increment_counts", "concept_formation/cobweb3.py:Cobweb3Node.update_counts_from_node", "concept_formation/cobweb3.py:Cobweb3Node.expected_correct_guesses", "concept_formation/cobweb3.py:Cobweb3Node.is_exact_match"]}
{"id": "C96", "title": "Scoring methods on node objects compute the scores and change nothing", "statement": "At every node object of a reachable CobwebTree or Cobweb3Tree, category_utility, cu_for_insert, cu_for_new_child, cu_for_merge, cu_for_split and cu_for_fringe_split, which build temporary node objects that refer to those of the tree, return the category utility that the node has after the real operation, and every object that existed before the call is as it was.", "quantifier": "every reachable store of node objects, node, child and instance", "why_tests_cant": "Aliasing between temporary and real nodes in unboundedly many stores.", "anchors": ["concept_formation/cobweb.py:CobwebNode.cu_for_insert", "concept_formation/cobweb.py:CobwebNode.cu_for_new_child", "concept_formation/cobweb.py:CobwebNode.cu_for_merge", "concept_formation/cobweb.py:CobwebNode.cu_for_split", "concept_formation/cobweb.py:CobwebNode.cu_for_fringe_split", "concept_formation/cobweb.py:CobwebNode.create_child_with_current_counts"]}
{"id": "C97", "title": "Cobweb3 log_likelihood in floating point", "statement": "For every concept of a Cobweb3Tree fitted in floating point and every concept below it, log_likelihood returns a number. (False: the exponential underflows when the means are more than 38.8 deviations apart, which happens for one outlier among 2000 equal numbers. It holds when the accumulators of the visible numeric attributes are at most 36 deviations apart.)", "quantifier": "every reachable floating-point tree, every pair of a concept and a concept below it, every order of the sets", "why_tests_cant": "Underflow needs thousands of instances; the condition on means and deviations has to hold under all roundings.", "anchors": ["concept_formation/cobweb3.py:Cobweb3Node.log_likelihood", "concept_formation/continuous_value.py:ContinuousValue.integral_of_gaussian_product"]}
{"id": "C98", "title": "Nominal values and numbers in one dict", "statement": "A Cobweb3 concept keeps, per attribute, the counts of the nominal values and the accumulator of the numbers in one dict, the accumulator under the string #ContinuousValue#. Every operation finds a count under a nominal value and an accumulator under the key, so that ifit, probability and get_weighted_values behave as with separate tables. (False when an instance has that string as a value: the concept can then be neither copied nor scored and the next ifit of a different instance raises.)", "quantifier": "every sequence of instances, every value, every order of the sets", "why_tests_cant": "Depends on one particular string among all values, and on the mixture of types in dicts reached by arbitrary sequences.", "anchors": ["concept_formation/cobweb3.py:Cobweb3Node.increment_counts", "concept_formation/cobweb3.py:Cobweb3Node.update_counts_from_node", "concept_formation/cobweb3.py:Cobweb3Node.is_exact_match", "concept_formation/cobweb3.py:Cobweb3Node.expected_correct_guesses", "concept_formation/cobweb3.py:Cobweb3Node.get_weighted_values", "concept_formation/cobweb3.py:Cobweb3Node.probability"]}
{"id": "C99", "title": "Cobweb/3 with infinities, nan and overflow", "statement": "Whatever floats are fitted (infinities and nan among them) and whatever overflows: every concept counts instances, nominal values and numbers as it should, the children of a concept partition it, ifit returns a leaf that holds the instance, and the match test never raises on a leaf. (isNumber does not count nan as a number: each nan object is a nominal value; nan arises in accumulators and scores.) An instance matches a leaf if and only if it agrees with the leaf's instances and has no visible infinity the leaf has seen twice; a leaf with a visible infinity counts at most two instances, however often the instance is fitted. attr_scales holds the accumulators of the fitted numbers. combine raises only on two empty accumulators. While results are finite they are those computed without overflow. ifit and categorize do not raise. (The last holds for finite numbers below 2^1023 in magnitude. It is false from 2^1023 on: after x and -x the scale's squared error is -inf and every later categorize raises ValueError.)", "quantifier": "every sequence of instances with arbitrary IEEE doubles, every order in which sort leaves nan scores, every rounding", "why_tests_cant": "Overflow and nan propagate through accumulators and scores in ways that depend on the order of arbitrary extreme values; nan makes sort order unspecified.", "anchors": ["concept_formation/cobweb3.py:Cobweb3Tree.ifit", "concept_formation/cobweb3.py:Cobweb3Node.is_exact_match", "concept_formation/cobweb3.py:Cobweb3Node.expected_correct_guesses", "concept_formation/continuous_value.py:ContinuousValue.update", "concept_formation/continuous_value.py:ContinuousValue.combine", "concept_formation/continuous_value.py:ContinuousValue.unbiased_std"]}
{"id": "C100", "title": "Predictions and probabilities of Cobweb/3 in floating point", "statement": "At every concept of a fitted tree, with every operation rounded: the 'most likely' prediction returns and is the most frequent option among the concept's instances (a nominal value, the mean of the numbers, or None if that is allowed), although the frequencies are rounded. At a leaf the mean lies between the smallest and the largest number stored there and is near their exact mean, so a regression tree predicts between training targets that agree on the visible attributes. A sampled prediction returns, and what it draws occurs in the concept's instances. infer_missing keeps the given values and fills in exactly these predictions at the concept that categorize finds. probability returns a number between 0 and 1, which for a nominal value or None is the rounded share of the instances. weighted_choice returns whenever the weights are not negative and one is positive. (Sampling returns when sum adds from the left; with the compensated sum of Python 3.12 it raises ValueError for ten equally frequent values and the largest random number. With subnormal weights weighted_choice raises.)", "quantifier": "every history of up to 2^52 instances with arbitrary doubles that do not overflow, every monotone rounding (sampling and the upper bound 1: round half to even), every random number", "why_tests_cant": "Whether the running sum of rounded weights reaches the drawn number depends on the last bit of long sums and on random numbers next to one; ties between rounded frequencies need counts no test reaches.", "anchors": ["concept_formation/utils.py:weighted_choice", "concept_formation/utils.py:most_likely_choice", "concept_formation/cobweb3.py:Cobweb3Node.get_weighted_values", "concept_formation/cobweb3.py:Cobweb3Node.predict", "concept_formation/cobweb3.py:Cobweb3Node.probability", "concept_formation/cobweb.py:CobwebTree.infer_missing"]}
{"id": "C101", "title": "TrestleTree with all Python floats", "statement": "Whatever structured instances are fitted, with whatever floats at any depth (infinities and nan among them), however operations round and overflow, and whatever mappings the search finds: the tree is one that Cobweb/3 reaches by fitting the preprocessed instances, so that every concept counts a part of them, children partition their parent, leaves hold instances that agree, and attr_scales holds the accumulators of their numbers. Preprocessing invents no numbers. All variables in the tree are names its gensym returned, and a new instance never shares one with the root before it is mapped. ifit returns a leaf that holds the preprocessed instance; categorize changes neither the tree nor the scales. ifit and categorize of instances with proper attributes and hashable values do not raise. (The last holds for finite numbers below 2^1023 and searches that return. It is false from 2^1023 on: after {a: x} and {a: -x} every later categorize raises.)", "quantifier": "every sequence of calls on well-formed nested instances with arbitrary IEEE doubles, every search outcome, every rounding, every order in which sort leaves nan scores", "why_tests_cant": "Nested structure, generated names and extreme numbers interact; tests fit a few small scenes with moderate numbers.", "anchors": ["concept_formation/trestle.py:TrestleTree.trestle", "concept_formation/trestle.py:TrestleTree._trestle_categorize", "concept_formation/trestle.py:TrestleTree.gensym", "concept_formation/cobweb3.py:Cobweb3Tree.ifit", "concept_formation/preprocessor.py:Flattener._flatten", "concept_formation/preprocessor.py:SubComponentProcessor"]}
{"id": "C102", "title": "Cobweb/3 with all Python numbers: large integers, fractions, Decimal and complex", "statement": "Numbers other than floats also count as numbers for Cobweb3Tree. Integers and fractions that are floats (all integers up to 2^53) are treated as these floats. Others are rounded when counted but compared exactly, so an instance with such a visible number never matches any leaf: each time it is fitted it gets a new leaf of its own, and a tree of such instances has as many leaves as instances. A number that rounds to 2^1024 or more raises OverflowError, a Decimal or complex TypeError: in ifit always in update_scales, before any concept is touched, but after the numbers of the attributes before it (and the Decimal itself, without its value) have been counted in attr_scales; in categorize only once the root has children. So after any sequence of successful and rejected calls the concepts count exactly the fitted instances (children partition their parent, ids differ, leaves agree after rounding), but 'a rejected instance has no effect' is false for the scales, which count exactly the numbers of fitted instances and those seen before the exceptions. All other calls with floats below 2^1023 return.", "quantifier": "every sequence of ifit calls with arbitrary Python numbers that returned or were rejected in update_scales, every monotone rounding, every order in which sort leaves nan scores", "why_tests_cant": "Tests use small floats; integers beyond 2^53, fractions and rejected instances in the middle of a history do not occur in them.", "anchors": ["concept_formation/utils.py:isNumber", "concept_formation/continuous_value.py:ContinuousValue.update", "concept_formation/cobweb3.py:Cobweb3Tree.update_scales", "concept_formation/cobweb3.py:Cobweb3Tree.ifit", "concept_formation/cobweb3.py:Cobweb3Node.is_exact_match", "concept_formation/cobweb3.py:Cobweb3Node.increment_counts"]}
{"id": "C103", "title": "What a call of ifit that raises leaves behind", "statement": "A caller may catch the exception of an ifit call and go on with the tree. Whatever the scoring function does and however many calls raise, the node objects then still form one tree with consistent parent and child links and different concept ids; every inner concept has at least two children; the leaves hold exactly the instances of the calls that returned, and a raising call keeps the root object, every leaf and its table. Every other concept counts the instances of its leaves and in addition some of those of the calls that raised, its children together never more of these than the concept itself. With pairwise different random numbers a raising call on a tree that had none before changes no existing object at all (the exception is ZeroDivisionError, raised while choosing at the root). This fails when two draws coincide: then TypeError can be raised below a root that has already counted the instance. For Cobweb3Tree the same holds for the concepts, but attr_scales has then counted the numbers of the rejected instance.", "quantifier": "every sequence of ifit calls that return or raise, every scoring function, every exception it raises", "why_tests_cant": "No test looks at a tree after an exception; the states between the operations of the loop in which a call can stop are many and the ties needed to reach them are improbable.", "anchors": ["concept_formation/cobweb.py:CobwebTree.ifit", "concept_formation/cobweb.py:CobwebTree.cobweb", "concept_formation/cobweb.py:CobwebNode.two_best_children", "concept_formation/cobweb.py:CobwebNode.get_best_operation", "concept_formation/cobweb3.py:Cobweb3Tree.ifit", "concept_formation/cobweb3.py:Cobweb3Tree.cobweb"]}
{"id": "C104", "title": "What the example scripts draw and write", "statement": "cobweb3_cluster_simulated.py: when every datum has a visible attribute and numbers under x and y, nothing raises, and after every datum the script draws nothing if the data seen so far agree on all visible attributes, and otherwise one ellipse per cluster of a division of these data into at least two non-empty clusters, centred at the cluster's means and two corrected deviations wide to each side; a cluster without such a number is a KeyError. acs_simulation.py: convert_cat keeps attributes, their order, types and everything outside components and replaces each other value in a component by the text of the nearest multiple of one half (halves to even), raising TypeError exactly when such a value is no number, hence always on its own output; each line of the file has an opportunity and the accuracy there. trestle_predict_rumbleblocks.py: the curves contain every score of every run exactly once, with its position, position by position; the human answers are sorted by position and are 1 exactly when the prediction was right. cobweb3_cluster_iris.py: the plot returns exactly for at most seven clusters and three classes, and then two irises have the same colour exactly when they are in the same cluster.", "quantifier": "every list of data, every tree reached, every table of scores and every table of answers, any order of the sets", "why_tests_cant": "The scripts have no tests; they run on one data set each and the error of the written file is not visible in a plot.", "anchors": ["concept_formation/examples/cobweb3_cluster_simulated.py", "concept_formation/examples/acs_simulation.py:convert_cat", "concept_formation/examples/trestle_predict_rumbleblocks.py", "concept_formation/examples/cobweb3_cluster_iris.py"]}
{"id": "C105", "title": "What is read from the dicts of a Cobweb3Node, in their own order", "statement": "With av_counts kept as the code keeps it (one dict per attribute, the accumulator somewhere between the nominal values under '#ContinuousValue#'), after every history without that string as a value: the dicts of every concept record exactly some of the fitted instances, those of the root all of them; get_weighted_values lists the keys in the order of the dict, each with its share; predict with 'most likely' returns a value of a key with the largest share (the mean for the accumulator) and never raises; 'sampled' returns the key whose interval of the cumulated shares, in the order of the dict, contains the draw; infer_missing keeps the instance, adds only values recorded at a leaf and never raises; log_likelihood is the sum over shared attributes and values whatever the order of the sets; pretty_print never raises and shows one line per concept with the entries in the order of the dicts; output_json, when the texts of names and values differ, never raises and shows for every concept its size, the entries in the order of the dicts, and the last key recorded under '_guid'.", "quantifier": "every history of ifit calls, every node, attribute, draw, order of the sets, tie breaking", "why_tests_cant": "The order of the dict depends on the history; tests fix one history.", "anchors": ["concept_formation/cobweb3.py:get_weighted_values", "concept_formation/cobweb3.py:predict", "concept_formation/cobweb3.py:log_likelihood", "concept_formation/cobweb3.py:pretty_print", "concept_formation/cobweb3.py:output_json", "concept_formation/cobweb.py:infer_missing"]}
{"id": "C106", "title": "What calls on a TrestleTree, and calls of fit, that raise leave behind", "statement": "After any calls of ifit, categorize and infer_missing on a TrestleTree, in any order, on any instances, returning or raising: the node objects form a tree with the links of a tree and different concept ids; its leaves hold exactly the preprocessed instances of the calls of ifit that returned; the tables of the other concepts have in addition some of the instances of the calls that raised while the instance was being sorted, and attr_scales has the numbers of all of these. A call that raises in the preprocessing or in the check changes neither the nodes nor attr_scales. When no two random numbers coincide, the first call that raises while sorting raises ZeroDivisionError and changes no concept, but attr_scales has its numbers. categorize and infer_missing change no concept and not attr_scales, whether they return or raise. A fit of any of the three classes leaves the caller's list as it is; when it raises, it has fitted some passes and the beginning of one more, and the next instance is one whose call raised.", "quantifier": "every sequence of calls, every instance, every outcome of the searches, every shuffle, every number of iterations", "why_tests_cant": "No test catches an exception and goes on with the tree; the state after a failed call depends on where it failed.", "anchors": ["concept_formation/trestle.py:trestle", "concept_formation/trestle.py:_trestle_categorize", "concept_formation/trestle.py:infer_missing", "concept_formation/cobweb.py:fit"]}
{"id": "C107", "title": "Cobweb is exactly the textbook algorithm; random numbers only break ties", "statement": "State the COBWEB algorithm of the literature on hierarchies of groups of instances, without tables, counts, identifiers, order of children or random numbers: at a concept with concepts below it take a best host and a second best host (larger utility of the division, and among equal ones more instances), take one of the best of the four operations offered (merging only with a third concept, splitting only a host that has concepts below it), and go on; at a concept with none below it join when the instance looks like all of its own, and divide it otherwise; among equally good choices any may be made. Then every tree that CobwebTree or Cobweb3Tree can have after a sequence of calls of ifit shows a hierarchy that this algorithm can learn from the same instances in the same order; and for instances with visible attributes every hierarchy that this algorithm can learn is shown by a tree of CobwebTree and of Cobweb3Tree, for some values of the first random numbers, all in [0,1). Ties do occur: four instances in a given order can give a root with three children or one with four.", "quantifier": "every history, every instance, every stream of random numbers; every sequence of choices of the textbook algorithm", "why_tests_cant": "The tests compare single operations and single trees; that the random numbers reach exactly the results that ties permit, and no other, is a statement about all streams at once.", "anchors": ["concept_formation/cobweb.py:cobweb", "concept_formation/cobweb.py:two_best_children", "concept_formation/cobweb.py:get_best_operation", "concept_formation/cobweb3.py:ifit"]}
{"id": "C108", "title": "categorize is the textbook descent; random numbers only break ties", "statement": "Categorizing in the textbook: from the root go to a concept below that is a best host for the instance (larger utility of the division with the instance in it, and among equal ones more instances), until there are none below; among equally good hosts any may be taken, and nothing is learnt. Whatever random numbers are drawn, a leaf returned by categorize of CobwebTree or Cobweb3Tree is one that this descent can reach in the hierarchy shown by the tree (for Cobweb3Tree with the scales of the numbers seen so far, without those of the instance), and every leaf that it can reach is returned for some values of the first random numbers, all in [0,1); the instance need not have visible attributes. TrestleTree.categorize does so with the preprocessed instance. Ties do occur: in one tree two leaves with different instances are results for one instance.", "quantifier": "every history, every instance, every stream of random numbers; every sequence of choices of the textbook descent", "why_tests_cant": "The tests compare single leaves; that the random numbers reach exactly the leaves that ties permit is a statement about all streams at once.", "anchors": ["concept_formation/cobweb.py:_cobweb_categorize", "concept_formation/cobweb.py:two_best_children", "concept_formation/trestle.py:_trestle_categorize"]}
{"id": "C109", "title": "What sorting and categorizing cost", "statement": "Counted in evaluations of expected_correct_guesses: two_best_children makes exactly 3B+1 of them for B children, where cu_for_insert for each child would make B(B+1) (so the claim of the docstring that relative scores reduce the factor B^2 to B is right, and the saving starts at three children: for two children 7 against 6). One pass through the loop of cobweb makes exactly (3B+1)+(B+2), plus B if there are more than two children, plus B+m if the best child has m > 0 children. A whole call of cobweb on a tree of N concepts makes at most 3N^2, of categorize at most 4(N-1), also when they raise; so at most 12n^2 and 8(n-1) on a tree of n instances, and at most 4n^3 for fitting n instances. If no concept has more than B children, categorize makes at most (3B+1) times the height of the tree, and the height is at least log_B of the number of leaves. Each evaluation is of a table that summarises some of the n+1 instances and for nominal tables squares at most one probability per visible attribute-value pair occurring in them.", "quantifier": "every tree, instance and stream of random numbers; every history for the bounds in n", "why_tests_cant": "Timings of samples say nothing about the worst case.", "anchors": ["concept_formation/cobweb.py:relative_cu_for_insert", "concept_formation/cobweb.py:two_best_children", "concept_formation/cobweb.py:get_best_operation", "concept_formation/cobweb.py:cobweb", "concept_formation/cobweb.py:_cobweb_categorize"]}
{"id": "C110", "title": "An instance just learnt is recognised, one learnt earlier need not be", "statement": "Let all instances fitted into a CobwebTree have the same visible attributes, at least one. After ifit(i), categorize(i) returns a leaf at which each visible attribute of i has in all instances of the leaf the value that i has, and no other visible attribute occurs; so predicting any visible attribute of i at that leaf gives back its value. This holds for every history and every way of breaking ties, and both calls return when no two random numbers are equal. The same holds for Cobweb3Tree with any settings when the visible values are nominal, and for TrestleTree when preprocessing the instance again gives the same, in particular for flat nominal instances. One instance later it fails: there are six instances after which the fifth one is, whatever the random numbers, categorized to a leaf of another instance. The order of instances matters whatever the random numbers: four instances give three concepts below the root in one order and two in another. And an instance that is fitted twice may be, whatever the random numbers, in two leaves.", "quantifier": "every history of instances with the same visible attributes, every instance with them, every stream of random numbers; for the counterexamples every stream of random numbers", "why_tests_cant": "Tests sample histories and one stream of random numbers; here all histories are covered and the counterexamples hold for every outcome of the ties.", "anchors": ["concept_formation/cobweb.py:cobweb", "concept_formation/cobweb.py:ifit", "concept_formation/cobweb.py:categorize", "concept_formation/cobweb.py:_cobweb_categorize", "concept_formation/cobweb.py:two_best_children", "concept_formation/cobweb.py:get_best_operation", "concept_formation/cobweb.py:predict"]}
{"id": "C111", "title": "The files a visualisation writes", "statement": "visualize, visualize_no_leaves and visualize_clusters called with an existing directory other than that of the package write into its output.js the JSON of an object showing the concepts they are to show, copy viz.html, viz_logic.js and viz_styling.css from the package when recreate_html is set or there is no viz.html, change no other file and open the page in that directory. The text of output.js determines the JSON. Such a call raises exactly when the data cannot be written as JSON, the directory is missing, or files are to be copied and the directory is that of the package or one of the files is missing there. Of several calls with one directory only the last is to be seen. With dst=None output.js of the package is overwritten, so two trees share one page, although the documentation says that no files are generated. When json.dumps raises, output.js has already been emptied. Without recreate_html a viz.html that is there stands for all three files, so that a missing script is not noticed.", "quantifier": "every disk, directory, tree, flag and every function json.dumps", "why_tests_cant": "The tests of the package do not call the visualisations; a test would look at a few directories and not at what is left unchanged or lost.", "anchors": ["concept_formation/visualize.py:_copy_file", "concept_formation/visualize.py:_gen_output_file", "concept_formation/visualize.py:_gen_viz", "concept_formation/visualize.py:visualize", "concept_formation/visualize.py:visualize_no_leaves", "concept_formation/visualize.py:visualize_clusters"]}
{"id": "C112", "title": "What the search for a mapping can reach, and what it can miss", "statement": "The states of the structure mapping search reachable from a start by successors are exactly the one-to-one mappings of the instance's variables, to themselves or to variables of the base, that map at least as many variables to the base as the start; each is reached in at most as many steps as the instance has variables. For nominal values mapping more variables never costs more, so nothing is lost by the search never unmapping: from every start a mapping as cheap as any given one can be reached. With a single variable a state that no successor beats is the best reachable. In general this fails: there is a nominal task where every cheapest assignment of hungarian_mapping is strictly cheaper than all its successors although a cheaper mapping exists, so hill climbing returns a mapping that is not the cheapest. With numbers mapping a variable can cost more than leaving it.", "quantifier": "every start, base, instance, number of variables and scaling; the negative parts by a witness", "why_tests_cant": "The tests map a few small instances and look at the returned mapping; which states can be reached and whether a local optimum is global are statements about all mappings.", "anchors": ["concept_formation/structure_mapper.py:successors", "concept_formation/structure_mapper.py:swap_two", "concept_formation/structure_mapper.py:swap_unnamed", "concept_formation/structure_mapper.py:goal_test", "concept_formation/structure_mapper.py:node_value", "concept_formation/structure_mapper.py:mapping_cost", "concept_formation/structure_mapper.py:flat_match", "concept_formation/structure_mapper.py:hungarian_mapping"]}
{"id": "C113", "title": "The example file of the visualisation, and output_json on the node objects", "statement": "output_json of a Cobweb3Node, run on the linked node objects, makes the object of the tree they form exactly when nested calls are allowed down to the leaves, and raises otherwise; on trees of fitted instances it never raises for another reason, whatever the texts. gen_example.output_json, when it returns, has written into output.js of the current directory the text 'var trestle_output = ', the JSON of the object of a Trestle tree fitted burn times with the first size instances (a negative size drops instances at the end) of the shuffled data, with variables marked for the data with components, and ';', and has changed no other file; the root's size is burn times the number of these instances. It returns if there are data, they can be fitted, the searches return, random numbers differ, the directory exists, the object is JSON and the interpreter allows as many nested calls as instances are fitted. With no data it raises IndexError and writes nothing. If the tree is too deep or not JSON it leaves a file that breaks off after the first part. An unknown name loads the forest fires; rb_wb_03 cannot be chosen on the command line.", "quantifier": "every file name, size, seed, number of iterations, state of the package, data, disk, and every shuffle, search, str and json.dumps", "why_tests_cant": "The script has no tests; the statement is about all data and arguments, and about what is left on the disk when an exception occurs.", "anchors": ["concept_formation/visualization_files/gen_example.py:output_json", "concept_formation/cobweb3.py:Cobweb3Node.output_json", "concept_formation/preprocessor.py:ObjectVariablizer.transform", "concept_formation/cobweb.py:CobwebTree.fit"]}
{"id": "C114", "title": "num_concepts, pretty_print, str and output_json on the node objects", "statement": "Run on the linked node objects with a bound on nested calls, num_concepts, pretty_print, str of a node or tree, and output_json of a CobwebNode return a value exactly when the objects reached through the lists of children form a finite tree no node of which lies as deep as the bound (str of a node and of a tree take one and two calls more), and then it is the value of that tree: the number of nodes, the text of C78, the object of C21. On a tree num_concepts raises nothing but RecursionError. If an object can be reached from itself through lists of children, num_concepts raises whatever the bound. After n >= 1 fitted instances n nested calls are enough (n + 2 for str of the tree): num_concepts is less than 2 n, the size in the JSON is n and the text has as many lines as there are concepts.", "quantifier": "every store, address, bound on nested calls, text function; every history of fitted instances", "why_tests_cant": "The tests call these methods on one or two small trees; the statement is about every arrangement of node objects, including shared and cyclic ones, and every recursion limit.", "anchors": ["concept_formation/cobweb.py:CobwebNode.num_concepts", "concept_formation/cobweb.py:CobwebNode.pretty_print", "concept_formation/cobweb.py:CobwebNode.__str__", "concept_formation/cobweb.py:CobwebTree.__str__", "concept_formation/cobweb.py:CobwebNode.output_json", "concept_formation/cobweb3.py:Cobweb3Node.pretty_print"]}
{"id": "C115", "title": "When a tree is a single concept, and what makes it grow", "statement": "A Cobweb, Cobweb/3 or Trestle tree consists of a single concept exactly when all fitted instances (for Trestle: preprocessed) agree on the attributes that are not hidden, whatever their number and order (an infinite number is the exception: from the third instance on it no longer matches itself); in particular instances with only hidden attributes never make it grow. Fitting one more instance that agrees with all before returns the root with the instance added to its table, draws no random numbers, makes no concepts and computes no score. The first instance that differs yields a new root with the table of everything and two leaves: the old concept, unchanged, and a new one for the instance, which is returned; no score is computed and no random number drawn.", "quantifier": "every history of fitted instances, every next instance, random state and scoring function", "why_tests_cant": "All histories; an equivalence cannot be tested in the direction from the tree to the history.", "anchors": ["concept_formation/cobweb.py:CobwebTree.cobweb", "concept_formation/cobweb.py:CobwebNode.is_exact_match", "concept_formation/cobweb3.py:Cobweb3Node.is_exact_match", "concept_formation/cobweb3.py:Cobweb3Tree.ifit", "concept_formation/trestle.py:TrestleTree.ifit"]}
{"id": "C116", "title": "Concepts and continuous values as keys of dicts and sets", "statement": "A concept or a continuous value used as a key of a dict or in a set stands for the object itself: whatever is stored and however the tables, links and numbers of the objects change in between, a lookup returns what was last stored under that object, every object has one entry, and set(list of concepts) has every object once even if concept ids or hashes coincide. The docstring of ContinuousValue.__hash__ promises that all continuous values are mapped to the same entry; this is false: they share a hash, but two objects have two entries.", "quantifier": "every sequence of insertions and changes, every hash function of strings, all concept ids", "why_tests_cant": "Every interleaving of changes and lookups, every hash seed.", "anchors": ["concept_formation/cobweb.py:CobwebNode.__hash__", "concept_formation/continuous_value.py:ContinuousValue.__hash__", "concept_formation/cluster.py:AIC"]}
{"id": "C117", "title": "Predictions of Cobweb/3 with infinities and nan", "statement": "In every tree fitted with any Python floats, predict(attr) with the default choice function at a leaf gives back, for every attribute that is not hidden, what the instances stored at the leaf have: nothing, the nominal value, or the number; the only exception is an infinity stored there more than once, for which nan is predicted, a value no instance had. At every concept, leaf or not, and for every recorded attribute, hidden or not, the prediction is a most frequent option among the instances below the concept, where missing is an option only if it is allowed and a number stands for the mean kept there (up to 2^52 instances, rounding included). infer_missing keeps what is given and completes the rest from the instances of one leaf in the same way. It does not raise if the numbers fitted are below 2^1023 in magnitude or infinite.", "quantifier": "every history of fitted instances with any floats, every leaf, attribute, instance, rounding, random state and order of dict entries", "why_tests_cant": "All histories, all floats including infinities, all roundings and all random states.", "anchors": ["concept_formation/cobweb3.py:Cobweb3Node.predict", "concept_formation/cobweb3.py:Cobweb3Node.get_weighted_values", "concept_formation/cobweb.py:CobwebTree.infer_missing", "concept_formation/continuous_value.py:ContinuousValue.update"]}
