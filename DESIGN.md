# A Lean 4 model of cmaclell/concept_formation

The theorems are about the model in `lean/Verif/`.
The tie between the model and the Python code is reading: every definition cites the file and lines it models,
and says where it simplifies.  Nothing in `/repo` was run or changed.

Where to look:

| What | Where |
|---|---|
| Python's dictionaries, exceptions, objects | `Verif/Py/` |
| the model, function by function | `Verif/Model/` |
| specifications that do not use the model's helpers | `Verif/Spec/` |
| the property theorems, named after the property (`C07_...`), each with an example | `Verif/Props/` |
| everything else | `Verif/Proofs/` |
| status of each property and exact theorem names | `MANIFEST.json` |
| wrong programs tried, and which theorems failed for them | `seeded/LOG.jsonl` |

A theorem whose name ends in `_partial` proves less than the property; its comment gives the full statement
and what is missing.  When the code does not have the property, the negation is proved too.

## 1. Modelling decisions

| Python | Model | Simplification |
|---|---|---|
| `float` | `ℚ` (Cobweb) or `ℝ` (numeric values) | exact arithmetic, except in C91-C93, C95, C97 and C100, where every operation is rounded (`Spec/Float.lean`), and in C94, where the scores are computed with an arbitrary arithmetic (`Model/Arith.lean`). Overflow, NaN and infinities are in C99, C101, C102, C115 and C117 only (`Model/ExtFloat.lean`); the sign of zero is outside the model. Counts are `ℕ` (the code stores `0.0, 1.0, ...`) |
| `dict` | list of entries in insertion order (`Py/Dict.lean`): replacement in place, new keys at the end | keys are compared structurally (Python also has `1 == True`) |
| objects in raw instances | the type `Py` (`Py/Obj.lean`) | `int` and `float` of one value are one object; a `bool` is not a number |
| exceptions | values `Except PyErr` | class kept, message dropped. State changed before an exception is kept where the code has state (store, counters, scales, preprocessors) |
| `random()` | a stream `ℕ → ℚ` in `World`, universally quantified, with the position of the next draw | |
| `uniform`, `shuffle`, set order, `max` on ties | parameters, universally quantified, or constrained by a stated law | |
| node objects | two layers: rose trees with concept ids (`Model/Cobweb.lean`), and a store of records with references (`Model/Heap.lean`) that follows the code statement by statement, including the temporary nodes of the scoring functions | C66 proves that the second always represents the first, C96 the same for the scores |
| overriding (CobwebNode / Cobweb3Node) | a record of methods, `NodeClass`, given to the shared algorithm | |
| `while` loop of `cobweb` | recursion with fuel; C06 shows that the fuel given always suffices | |
| gensym counter | a number threaded through, including the ids used up by temporary nodes | |
| class constant `cv_key` | Cobweb/3 tables hold the accumulator apart from the nominal values | so an instance may not have the string `"#ContinuousValue#"` as a value; what the code does then is described in Model/Cobweb3.lean |
| munkres, py_search | arbitrary functions of which only the contract stated in Spec/StructureMapper.lean is assumed | |
| `str`, `float(s)`, `json.loads` | parameters; where a proof needs more (for instance that different labels are different strings) it is an explicit hypothesis or proved of Lean's decimal notation | |

## 2. What is modelled, and how the properties are proved

| Properties | Code | Proof |
|---|---|---|
| C01-C05, C29, C57, C63 | `cobweb`, `ifit` for CobwebTree, Cobweb3Tree, TrestleTree | one inductive invariant over histories: the tree *holds* a multiset of instances (every table is the summary of the instances below it, leaves are pure, inner nodes have at least two children) |
| C06 | the loop | the size of the subtree decreases |
| C07, C63, C71 | exceptions | invariant "every node has a visible attribute", or else a child of the root has none |
| C08 | ids | ids distinct and below the counter |
| C09 | `fit` | induction over iterations |
| C10, C22, C66, C67, C68 | the store of objects | refinement and frame theorems |
| C11-C15, C70 | scoring functions, `get_best_operation` | algebra; Cauchy-Schwarz for C14 |
| C16-C18, C20, C21, C33 | `probability`, `predict`, `infer_missing`, `log_likelihood`, `output_json` | from the summary invariant |
| C19, C24, C31, C32, C64, C65 | pairs of runs | one simulation theorem for the generic algorithm (Proofs/Sim*) |
| C23, C52 | `_sanity_check_instance` | case analysis of Python objects |
| C25-C28, C30, C34 | ContinuousValue, scales | algebra; the integral of C28 is an actual integral |
| C35-C41, C69 | cluster.py on the store | invariant over the split loop (`IterOk`) |
| C42-C44 | utils.py | lists; the table of c4 is finite |
| C45-C53 | preprocessor.py | structural induction on instances |
| C54-C56, C73 | structure_mapper.py, names in TrestleTree | injective renamings; invariant over successor steps; freshness |
| C74, C75 | `mapping_cost`, `hungarian_mapping`, `random_successor` | the summary invariant for renamed tables; an assignment for every mapping |
| C58 | dummy.py | invariant over all calls |
| C59, C60 | evaluation.py | any tree with the four operations used, then the four trees of the package |
| C61 | visualize.py | paths in the trimmed objects |
| C62 | datasets.py | from the text of a file to the list; `Model/Loaders.lean`: each loader with its file, the directory a function from names to texts, `FileNotFoundError`, files of any content |
| C76 | `fit` for any `ifit` | an invariant of states and fitted instances; the passes are permutations |
| C77 | generate_quadruped.py | the form of an animal and its ranges; computations that end with enough steps |
| C78 | `__str__`, `pretty_print`, `__repr__` | the list of nodes with depths; reading a dict text back |
| C79 | `Cobweb3Node.output_json` | the table of a node, from the instances it summarises |
| C80 | `moving_average`, `avg_lines` | sums of slices; the values grouped by position |
| C81 | `lowess` | normal equations; the rank of a distance; the loop unrolled |
| C82 | TrestleTree against Cobweb3Tree | the pipeline sorts the entries of a flat instance; order-independence of C37 for whole runs |
| C83-C85 | `infer_missing`, scores and category utility of Cobweb/3 | the same invariants as for Cobweb, with real numbers |
| C86 | `TrestleTree.infer_missing` | flat instances pass the pipeline and back unchanged; three counterexamples by evaluation |
| C87 | `verify_counts` of the tests | the nested loops compute differences of sums; reachable trees by C01, C29, C57 |
| C88, C89 | `li_biswas_experiment.py` | the confusion table as counts; the sorted totals as a set of three; C35 for the run |
| C90 | `expected_correct_guesses` of Cobweb/3, `compare_mse_acc.py` | the integral of C28 with equal arguments |
| C91-C93 | ContinuousValue in floating point | any monotone rounding that fixes the floats, 53 bits and exponents from -1074; error bounds step by step; the counterexamples use round-to-nearest-even |
| C94 | Cobweb with any arithmetic | `Model/Arith.lean` repeats the algorithm with the operations as parameters; `C94_exact` says that the exact model is the instance for ordered fields; the invariants then hold for floats, including overflow and nan |
| C95 | Cobweb/3 in floating point | `Model/Float3.lean` is `Model/Cobweb3.lean` with a rounding after each operation (`C95_unrounded`); since copying an accumulator can change it (C92), tables no longer summarise their instances exactly; the invariant is instead that leaves are built instance by instance (`Proofs/Tables.lean`) |
| C96 | scoring methods on the store | `Model/Heap.lean` and `Model/HeapScores.lean`; the category utility after the real operation |
| C97 | `log_likelihood` in floating point | `Model/FloatLikelihood.lean`; the overlap of two densities is zero beyond 38.8 deviations and positive within 36; numbers up to 2^20, counts up to 2^53 |
| C98 | one dict for nominal values and numbers | `Model/RawTables.lean`; the tables of `Model/Cobweb3.lean` are shown to stand for the dicts of the code as long as no value is `"#ContinuousValue#"`; with that value `ifit` raises |
| C99 | Cobweb/3 with all Python floats | `Model/ExtFloat.lean`, `Model/Ext3.lean`: numbers, `inf`, `-inf` and `nan`; results of magnitude 2^1024 overflow. `isNumber` is false of `nan`: as a value of an instance each `nan` object is a nominal value; `nan` arises in accumulators and scores. The orders in which `sort` puts `nan` scores are a parameter that only rearranges; `C99_sort` derives this, and when it raises, for any algorithm that compares (`Model/PySort.lean`). Numbers of counts are `ℕ`, converted where they meet floats (equal up to 2^53); other Python numbers are in C102 |
| C100 | predictions and probabilities in floating point | `Model/FloatPredict.lean`: `weighted_choice`, `get_weighted_values`, `predict`, `infer_missing`, `probability` with a rounding after each operation (`C100_unrounded`). How `sum` adds is a parameter, since Python 3.12 changed it |
| C101 | TrestleTree with all Python floats | `Model/TrestleX.lean`: the preprocessing of C56 in front of the tree of C99. To the preprocessing an infinity or a `nan` is an opaque object; the tree takes the former as a number, the latter as a nominal value. What an exception inside Cobweb/3 leaves behind is not modelled |
| C102 | Cobweb/3 with all Python numbers | `Model/Numbers3.lean`: integers and fractions are exact rationals, rounded where the code subtracts a float from them and compared exactly with `==`; `Decimal` and `complex` have no value. Exceptions of `update_scales` come with the scales they leave; what an exception raised later leaves is not modelled |
| C103 | what a call of `ifit` that raises leaves | on the store of C66, where the state of a failing call is kept; the exceptions are those of the scoring functions and of comparing tied candidates, for any scoring function. Exceptions of `increment_counts` itself (unhashable values) are not modelled on the store |
| C104 | four example scripts | `Model/Scripts.lean`: the values handed to matplotlib or written to a file; matplotlib, scikit-learn's scores and the projection are left out, `str` of a float and `int` of a text are parameters |
| C105 | reading the dicts in their own order | `Model/RawRead.lean`: `predict`, `infer_missing`, `log_likelihood`, `pretty_print` and `output_json` on the dicts of `Model/RawTables.lean`; the accumulator stands where its key was inserted. The random gauss, tie breaking and the order of the sets are parameters |
| C106 | what calls on a `TrestleTree` and calls of `fit` that raise leave | on the store, as C103; `TrestleRunsE` covers every sequence of calls (`C106_covers`). Exceptions in the preprocessing and in the check leave the store as it is; what the external search does to the store is in the steps `other` |
| C107 | `ifit` is the textbook algorithm with arbitrary tie-breaking, both ways | spec `Spec/Textbook.lean` (`Sorts`, `Learns`) knows neither tables nor random numbers; `Depicts` relates a tree to a hierarchy up to the order of children. Soundness needs no hypothesis on the instances, completeness that they have visible attributes; utilities are exact (rational, real for Cobweb/3 with the scales of the moment). With floats see C85-C92: rounding can make or break ties |
| C108 | `categorize` is the textbook descent with arbitrary tie-breaking, both ways | spec `Places` in `Props/TextbookPlace.lean`; the trees are those of C107; for TRESTLE (soundness only) the instance is the preprocessed one |
| C109 | evaluations of `expected_correct_guesses` by `two_best_children`, one pass of the loop, `ifit`, `categorize`, `fit`; which tables are evaluated | `Model/Trace.lean` repeats the functions of `Model/Cobweb.lean` with a record (`C109_same`: apart from it the same); counted are evaluations and, for nominal tables, squared probabilities; not counted: copying tables, sorting |
| C110 | an instance just learnt is recognised by `categorize`; what was learnt earlier may not be; the order matters; an instance fitted twice may be in two leaves | recognition is proved on the textbook hierarchies of C107 and C108 (`Proofs/Recognise.lean`), for instances with the same visible attributes; for Cobweb/3 and TRESTLE with nominal visible values (`Props/Recognise3.lean`, `Props/RecogniseTrestle.lean`). Open for histories with missing attributes and for numbers. `Model/Outcomes.lean` lists every outcome over all decisions of ties (`reach_listed`, `categorize_listed`: it misses none), so the counterexamples hold for every stream of random numbers |
| C111 | files written by `visualize.py` | `Model/VizFiles.lean`: a disk is a function from paths (directory, name) to texts; directories are compared as resolved, an existing one can be written to; opening the browser is the path returned; `json.dumps` is a parameter that may raise. What is shown is C61 |
| C112 | reach of the mapping search | `Props/SearchSpace.lean`: `SuccStep` is membership in `successors`; states are compared as sets (`SameState`), since dictionaries keep an order that the cost does not see. `NominalTask` is a concept that summarises nominal instances and a nominal instance with other variables. `Props/SearchStuck.lean` has the tasks where the search is stuck and where mapping costs more |
| C113 | `gen_example.py` | `Model/GenExample.lean`: `output_json` on the store, with the interpreter's limit on nested calls (`outOfFuel` is RecursionError); the loaders, `seed`, `shuffle`, `str`, `json.dumps` and the searches are parameters, printing is left out. What was written before an exception is in the file, since `with` closes it |
| C114 | `num_concepts`, `pretty_print`, `str`, `output_json` on the store | `Model/NodeWalk.lean`: as C113, with the limit on nested calls; the theorems hold for every store, so also for shared or cyclic node objects, and reduce the methods to C21 and C78 |
| C115 | trees of a single concept | on the tree model, for every class with the laws of `Proofs/Invariant.lean`; the scoring function is arbitrary because it is never called; also with rounded numbers and all floats, where a third equal infinity makes a second concept |
| C116 | `__hash__` of concepts and continuous values | `Model/Hashing.lean`: dict entries keep the hash; the probing order of CPython is left out, which is justified because at most one entry passes the test |
| C117 | `predict`, `infer_missing` of Cobweb/3 with infinities and `nan` | `Model/PredictX.lean`: the weights are ratios of counts and computed as in C100, the predicted numbers are those of C99; at inner concepts the predicted option is a most frequent one and a number is the mean kept there, whose value C99 does not give in general |
| C72 | size of trees | counting leaves and inner nodes of trees that hold a history |

Not modelled: what a browser does with the pages,
the example scripts that only call the package and plot, and tests.  Munkres' algorithm and hill climbing
belong to other packages.

## 3. What was found in the code

Each item is a theorem about the model unless marked (read).

* `expected_correct_guesses` divides by the number of visible attributes: an instance without one makes the next
  call raise ZeroDivisionError, and the instance stays in the root (C07; C07_ifit_raises_iff says exactly when).
* `probability(attr, None)` divides by zero on an empty tree (C16, C33); `incremental_evaluation` raises if the
  first instance lacks the attribute (C59_first_missing_raises).
* Cobweb/3 `predict` may answer None where the documentation promises the mean (C33_predict_none).
* The copy constructor leaves the copied children pointing at the original parent (C67_copy_links_broken).
* Numbers in hidden attributes change Cobweb/3 scores through a shared scale (C64_shared_scale_matters).
* `cluster_iter` with `minsplit >= 2` yields nothing (C37); `k_cluster` always raises TypeError for `k >= 2` (C38).
* `ContinuousValue.combine` of two empty accumulators raises (C26_both_empty); `weighted_choice` raises when the
  draw is the total (C42_boundary).
* Tuplizer: a relation whose head is a relation raises (C46_nested_head); numbers, double spaces and tuple
  attributes do not round-trip (C46_number, C46_two_spaces, C46_tuple_attribute); unclosed parentheses are
  accepted and all but the last element is lost (C46_unclosed).
* Flattener: attributes in hidden components become visible (C47_hidden_component).
* NameStandardizer: undo fails in documented cases (C48_undo_fails, C48_relation_type_error); one object twice in a
  Pipeline does not round-trip (C45_same_object).
* SubComponentProcessor: C49_rooted_needed, C49_split_needed, C49_split_endless (an endless loop on a component
  named `??`).
* ListProcessor: empty lists, elements with attribute `val`, hidden names, clashing names and repeated elements are
  not restored (C50_empty, C50_val, C50_hidden, C50_name_clash, C50_repeated, C50_pair).
* NominalToNumeric raises TypeError on components (C51_component_type_error).
* Sanitizer: empty names, None, unhashable elements of tuples and capitals in `spec` (C52_*).
* ObjectVariablizer: relations keep the old names, nested components are not visited, names clash (C53_*).
* A mapping given by the caller need not be injective (C54_user_not_injective).
* `is_partial_match` matches one unmapped variable with two different ones (C73_match_inconsistent); `bind_flat_attr`
  makes a tuple of characters from a string attribute (C73_bind_string).
* `mapping_cost` of a table counts too few instances when they share no attribute (C74_table_count_low).
* The search of the structure mapper cannot unmap a variable (C75_never_unmaps).  For nominal values nothing is lost by it
  (C112_enough); for numbers leaving a variable unmapped can be cheaper (C112_numbers).  Hill climbing can still miss the
  cheapest mapping: there is a task where every cheapest assignment is a strict local optimum (C112_stuck, C112_stays).  `random_successor` raises
  ZeroDivisionError when the base has a single variable that is in use, and IndexError when `random()` is 0 and
  there is nothing to swap (C75_random_raises); hill climbing does not call it.
* DummyTree: a call that raises has counted part of its instance (C58_failed_call_counts); fitting with and without
  mapping does not mix (C58_mapping_collision).
* `incremental_evaluation`: rows are one longer than `run_length` (C59_row_too_long).
* `visualize` with `dst=None` overwrites `output.js` in the package, although "no files will be generated"; two trees so
  shown share a page (C111_none_writes, C111_one_page).  It raises SameFileError for the package's own directory with the
  default flag (C111_same_file), and `output.js` is emptied before `json.dumps` runs (C111_emptied).  The entry `guid` of a
  Cobweb/3 concept is the one entry that is not made a string, so it decides whether `json.dumps` raises (read).
* `visualize_clusters` ignores clusters given as concepts (C61_concepts_ignored) and raises on an empty clustering.
* `_load_json` returns one instance more than asked for (C62_one_too_many); `_load_file` cuts a last row without line
  end (C62_rows_unterminated); the file of `load_mushroom` is not in the copy in `/repo` (read), and then it raises whatever the number (C62_missing).
* The tail of a generated cat can lie in the front half of its torso (C77_tail_in_torso).
* `pretty_print` of a Cobweb3Tree does not escape names and values: different trees have the same text
  (C78_cobweb3_ambiguous).  `output_json` drops an attribute whose text another one has (C79_collision).
* `lowess` raises for points on a line, e.g. constant values, as soon as it iterates twice (C81_line_raises), for up
  to three points with the default fraction (C81_needs_points), and has no intervals where all `x` differ
  (C81_no_bounds).  `avg_lines` ignores its argument `confidence` (read).
* The category utility of Cobweb/3 can be negative, since the corrected deviation of a union can be smaller than the
  deviations of its parts (C85_negative_utility, two concepts with the numbers 0 and 1 each).  Five instances with two
  numbers each lead to such a concept, whatever the random numbers (C85_negative_on_reachable).  Trestle accepts `None` as a value, Cobweb raises (read).
* `TrestleTree.infer_missing` can lose a given component (C86_component_lost), raise (C86_infer_raises) and move a
  given object into another one (C86_object_moved).
* `verify_counts` of the tests does not see wrong means and deviations (C87_blind), and raises `AttributeError` where
  its assertion should fail (C87_not_an_assertion).  Its comment says that it fails with renaming; it does not (C87_trestle).
* `li_biswas_experiment.py` line 52: the noise of the second group chooses `f1` from the group's own value and the third
  group's, so it never takes the first group's (C89_slip, C89_others_mix_partial).  The count of misclassified instances depends
  on the names of the clusters when sizes are equal (C88_names_matter).  Lines 189-192 plot the last run instead of the
  means computed before (read, not proved).
* `log_likelihood` of Cobweb takes `log(0)` for a leaf with a value that the concept does not have (C20_log_of_zero);
  Cobweb/3 tests for that and raises its own exception, but ignores numbers that the concept does not have (C68_raises_iff).
* In floating point, copying an accumulator (`combine` with an empty one, as `update_counts_from_node` does) can change
  its mean: 0.1 three times.  One more 0.1 then gives a positive deviation (C92_copy_inexact).  Different tiny values
  have deviation zero (C92_underflow).  The expected correct guesses of a concept with one number are 1 + 2^-52, against
  the docstring's "never exceeds 1" (C95_exceeds_one).
  After the two numbers `x` and `-x`, of magnitude 2^1023 or more, the squared error of the scale is `-inf`: every
  `categorize`, and every `ifit` without a number under that name, raises `ValueError` (C99_overflow_raises).  A leaf
  with an infinity does not match the same instance after the second time, so that a leaf counts at most two of them
  (C99_leaves, C99_ifit).  With scaling, one infinity and one more number make the scale of an inner name `nan`, and all
  concepts with numbers of such attributes score `nan` from then on (C99_infinity_blinds).  Even without other values the
  third equal infinity makes a second concept (C115_third_infinity), and a leaf with two of them predicts `nan`
  (C117_infinity_lost).
  An integer that is not a float, like 2^53 + 1, matches no leaf, not even the one it was just put in: every time it
  is fitted there is a new leaf (C102_inexact).  A number that is too large for a float, a `Decimal` or a `complex`
  makes `ifit` raise after the scales have counted the numbers before it: the rejected instance changes later scores
  (C102_rejection_has_effect).  `log_likelihood` of
  a leaf below a concept raises when `exp` underflows: 2500 zeros and a 50 suffice (C97_raises), and the heuristics
  of `cluster.py` that call it fail with it.  It can also be positive: the overlap of a constant number with itself is
  computed as 1 + 2^-52 (C97_positive).  `weighted_choice` can run past its last option and raise `ValueError`: for
  subnormal weights (C100_choice_subnormal), and, where `sum` is compensated (Python 3.12), for ten options of
  probability 0.1 (C100_sampled_compensated).
* A call of `ifit` that raises changes no concept if no two random numbers coincide: it raises while choosing at the root
  (C103_undisturbed).  In Cobweb/3 it has by then entered its numbers into `attr_scales` (C103_scales_witness).  When two
  draws coincide it can raise below the root, whose table then has an instance that no leaf has: the counts of the
  children no longer add up (C103_tied_witness).  The same holds for Trestle (C106_undisturbed, C106_scales_witness) and,
  for the instance at which it stops, for `fit` (C106_fit_cobweb, C106_fit_cobweb3, C106_fit_trestle).
* `examples/acs_simulation.py` writes the first two scores of each run under the heading `opportunity,accuracy` and drops
  the others (C104_csv, C104_csv_incomplete).  The iris example raises IndexError for more than seven clusters (C104_iris).
  `gen_example.output_json` ignores `prune` (read), takes an unknown name for forest fires (C113_other_names), its command
  line does not offer `rb_wb_03` (C113_not_offered), and it leaves half a file when the tree cannot be written (C113_cut_off).
* The docstring of `ContinuousValue.__hash__` promises that all continuous values are mapped to the same entry of a dict;
  without an `__eq__` every object has its own (C116_not_one_entry).
* `examples/regression.py` line 49 asks for `'y'`, but the targets are under `'_y'`: it always prints `None`
  (C100_predict_unknown).
* A nominal value equal to `"#ContinuousValue#"` breaks a Cobweb/3 tree: a concept that has counted it can be neither
  copied nor scored, so the next `ifit` of a different instance raises (C98_key_value_breaks); AIC and BIC count it as two
  parameters (C41).
* The docstring of `relative_cu_for_insert` claims a factor `B` instead of `B²`: right, 3B+1 against B(B+1) evaluations, but
  for two children the "efficient" way is the dearer one, 7 against 6 (C109_two_best, C109_worth_it).  Its `log_B(n)` is not a
  bound: the height is at least that (C109_height_log), and only `n - 1` bounds it from above (C72).
* One further instance can make `categorize` lose an instance that was learnt: the fifth of six instances is then categorized to
  the leaf of the sixth, whatever the random numbers (C110_forgotten), although right after `ifit` it is always recognised
  (C110_recognised).  The order of instances decides the tree even where no tie does (C110_order_matters), and copies of one
  instance can end in two leaves (C110_two_leaves).

## 4. Trusted base

* Lean's kernel and Mathlib's definitions of the notions used in statements.
* The axioms `propext`, `Classical.choice` and `Quot.sound`; `#print axioms` was run for every theorem in
  MANIFEST.json and shows no other.  No `sorry`, no added axioms, no `native_decide` or `bv_decide`.
* IEEE 754 as stated in `Spec/Float.lean`: `+ - * /` and `sqrt` return the rounded exact result (C91-C93, C95, C97, C99-C102).
  C97 and C100 also take `math.exp` and `math.log` to be rounded exactly; of `exp` they use only the bounds in `C97_underflow`
  and `C97_overlap_positive`, its sign and `exp(0) = 1`.
* The reading of the Python, with the simplifications of section 1 and those in the comments.
* `normalvariate(mu, sigma)` is mu plus a random multiple of sigma (C77); the multiples are arbitrary.
* `str` and `repr` of attributes and values are parameters; C78_cobweb asks of `repr` what holds for strings
  (`pyRepr_laws`). In C78 and C79 the accumulator is printed after
  the other values of an attribute; C105 has it in its own place.
* The stated contracts of the external libraries: munkres returns an assignment (for C75 a cheapest one), py_search returns a state
  reached by successor steps; numpy and scipy compute the formulas in `Model/Examples.lean`.  `random.shuffle` returns a permutation.

## 5. Testing the theorems

`seeded/LOG.jsonl` records wrong programs: an edit to one definition in a scratch copy, the claims it should
break, the theorems whose proofs failed, and the theorems tightened when none failed.
