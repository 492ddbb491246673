# Formal model of GPy-ABCD in Lean 4

Source: `/repo` (T-Flet/GPy-ABCD, pinned checkout). The Python was read, never run: the only tie between the model
and the code is the line-by-line reading recorded in the comment of every definition.

## Layout

* `lean/Verif/Model/*.lean`  the model, one definition per Python function, each citing file and lines.
* `lean/Verif/Spec/*.lean`   small specifications independent of the model's helpers.
* `lean/Verif/Lemmas/*.lean` helper lemmas.
* `lean/Verif/Props/*.lean`  the property theorems `C..`, with a non-vacuity `example` beside each.
* `properties.jsonl` the properties in English, `MANIFEST.json` which theorems settle which property and how far,
  `seeded/LOG.jsonl` the wrong programs the theorems were tried against. A theorem counts there as failed when its own proof
  breaks or when it uses a lemma whose proof breaks.

Theorem names: a suffix `_partial` means that part of the claim is missing; the comment and the manifest say which. Theorems
without a suffix that end in a word like `_witness`, `_raises`, `_stale`, `_wrong` show that the code breaks the claim.

## Trusted base

* Lean 4.33.0's kernel, and Mathlib as a library of definitions (lists, reals, derivatives, positive semidefinite matrices).
* Axioms: every theorem named in the manifest depends at most on `propext`, `Classical.choice` and `Quot.sound`. No axioms are
  added; no `sorry`, `admit`, `native_decide`, `bv_decide`, `implemented_by` or `unsafe`.
* The reading of the Python by the author of the model.
* Python: insertion-ordered dictionaries; `collections.Counter` (Python >= 3.10 equality: missing = 0); `list.remove` (first
  element `is` or `==`); `sorted` stable (proved from CPython's algorithm for fewer than 64 elements, `C109_sort`); `deepcopy` preserving sharing inside one call; `frozenset` iteration in any order
  (theorems quantify over it); exceptions are values; the fragment of the language that printed expressions use (`Model/Print.lean`).
* GPy and paramz, which are not in the repository: `+` and `*` of kernels flatten, siblings of the same name are called `name`,
  `name_1`, `name_2`, ..., full names join the names from the model down by dots (`Model/Params.lean`); `Kern.copy` makes a new
  object (`Model/Misc.lean`, C55); the formulas of `White`, `Bias`, `RBF` (`Model/Kernels.lean`). The optimiser and the regression are arbitrary
  functions that may raise, so theorems about the search and the model object hold for every fitting outcome. What GPy's own kernels save (`Model/Saved.lean`).
* numpy: `np.vectorize(f)` gives an array of the type of the value at the first input, raises `ValueError` for no inputs; a float written into an integer
  array is cut off towards zero (`Model/Vectorize.lean`).
* Floating point is replaced by real numbers (kernels, scores), or by any linear order with addition (intervals).

## What is modelled

| Code | Model | Left out or simplified |
|---|---|---|
| `collections.Counter` as used | `Counter` | base kernels are an enumeration, not strings |
| `KernelExpressions/*`: constructors, `simplify`, `extract_if_singleton`, `absorb*`, `==`, `contains_base`, `is_stationary` | `KE` | links and parameters are in their own models |
| `KernelExpressions/*`: `parent`, `root`, `set_root`, `set_parent`, `_initialise`, `traverse`, `reassign_child`, `new_tree_with_self_replaced`, `_check_families`, `reduce` | `Links`, `Reduce` | expressions are trees: no node object occurs twice in one; functions given to `reduce` may change base terms only |
| the same, `kernelExpressionOperations.py` and `grammar.py` as programs on a store of objects | `Objects` | recursion stops after as many levels as there are objects; `parameters` are empty |
| `__str__`, `__repr__`, `to_kernel_unrefined`, `eval` of them | `Print` | only the Python that printed forms use |
| `to_kernel`, `match_up_fit_parameters`, `get_param_dict`, `fit_ker_to_kex_with_params`, `init_rand_params` | `Params` | names as in the assumptions above |
| `sum_of_prods_form`, `new_bases_with_parameters`, `mult_by`, the parameter merges | `Sops` (values), `SopsHeap` (dictionaries and lists as objects) | `'ProductKE'` entry is a field |
| `kernelInterpretation.py` reduction of sigmoids | `Intervals` | |
| `kernelInterpretation.py` sentences, `get_interpretation` | `Interp`, `Format` | number formatting is a parameter of the sentences; `'{:.2f}'` is modelled for rationals |
| `kernelExpressionOperations.py` | `Ops` | |
| `grammar.py`: rules, `expand`, standardisation, start kernels | `Grammar` | |
| `modelSearch.py` | `Search` (values), `SearchHeap` (lists as objects), `SearchObj` (expressions as objects), `Scored` (any scoring function, CPython's `sorted`) | printing is kept as "raises or not" and "which models are named"; processes are a map; in `SearchObj` pickling is one `deepcopy` per chunk on the way back, and fitting changes no expression |
| `model.py`, `fit_kex` | `GPModel`, `Count` (`_k`), `Predict` (`predict`), `PredictPart` (with `kern`), `Likelihood` (`_ll`) | plotting; predictions and log-likelihood are GPy's formulas (`predCov`, and those listed in `Predict`, `Likelihood`) |
| `sigmoidalKernels.py`, `changeOperators.py`, `linearKernel.py`, `linearOffsetKernel.py`, `periodicKernel.py`, `changeWindowThreePart.py`, `changeWindowShiftedSides.py` | `Kernels`, `Gradients`, `Linear` (all of the linear kernel but psi statistics), `KernelTree` (whole kernels), `KernelCross` (`K(X, X2)` of them), `Windows` (the last two), `Misc` (objects inside change kernels), `DiagGrad` (`update_gradients_diag`), `Saved` (`to_dict`) | parameter bounds; numba; `isnan` guards of gradients |
| `benchmarking.py` | `Bench` | times are given, not measured; an ordered field instead of floats; versions are tags |
| `genericUtil.py`, score functions, synthetic data | `Util`, `UtilHash`, `Misc`, `Loo`, `LooGPy`, `Vectorize` | noise of the data is given; what GPy's `LOO` returns is a trusted formula (`LooGPy`) |
| `kernelUtil.py` | `Samples` | `saveKernelSamples`; points and covariances of samples |

Not modelled: plotting, `showcaseAllKernels.py`, GPy itself, multiprocessing as such, numerical
conditioning, wall-clock time, `remove_top_level_variance` (not used by the code).

## How each property is proved

* C01 specification: `Same`, an inductive relation "equal up to the order of terms"; `==` decides it, and it is an equivalence.
* C02, C74 specification: an expression denotes the set of its covariance functions over all positive variances (`Spec/Sem`); `simplify` keeps it.
  The code drops constants beside LIN, which changes the set (C02_lin_c_changes). Theorems about meaning (C02, C13-C18, C24, C72, C82, C92) are stated for
  every `Reading`: the real formulas where LIN does not meet C, and everywhere the formulas with LIN standing for LIN plus a constant.
* C03, C04, C07 invariants by induction on trees. C05, C06 are false; exact conditions instead.
* C08, C73 trees with identities and links; what `_initialise`, constructors, replacement and standardisation leave behind.
* C77 programs on a store: a frame invariant (nothing below an address is written, nothing from there up points below it) through every call.
* C78 refinement: a store holds a tree when following its addresses gives it; each call on the store gives a tree whose value is that of the
  same call on values, and leaves the rest of the store as it was. Rounds of expansion by induction. With `remove_some_term`, objects that share a branch come up on
  the way: those are followed as graphs (`Lemmas/Dag*`, `Inside`), and each has the value of an object before it (`Late`), so `unique` drops it and only trees are returned (`Pieces*`).
* C09, C10 lexer and stack machine; the printed form is read back, for all expressions, by induction on trees.
* C11, C12 induction; C11 against translation-invariance of every covariance function.
* C13-C18, C66 operators against multisets of terms and against the sets of C02.
* C19-C26, C67, C71, C72 expansion against "replace one node" relations; reachability from start expressions by induction on rounds. Higher curves are compared as families of covariances, for simplified nodes and, since searches also hold sums directly in sums, for nodes of any shape (`Props/Higher.lean`): what is left without SE gives the wanted family back when SE is added, or multiplied, again.
* C27-C34, C68, C69 invariants over the rounds of the search, for every oracle. `SearchHeap` refines `Search` (C68_refines).
* C35, C36 retries and chunked mapping. C37 verbose runs against silent runs.
* C38, C39 state machine over call sequences.
* C40 a specification says which fitted value belongs to which term; matching finds it. `init_rand_params` (kernels of no model) is modelled too (C40_random); the random values are any values. C41-C43 evaluate the form over the reals.
* C44-C46 an interval is a set of points; reductions are intersections. C47, C75 a specification of what a sentence must tell, and which words and numbers its text must have;
  where it is told (`Located`) and its sigmoids and variances hold without conditions, the whole text for components whose windows can be told (`Tellable`).
  Which mixtures reduce is decided exactly over dense orders without ends (C46_iff: induction over the kinds, the accumulator being disjoint non-empty intervals in order),
  and with it which components and which expressions have a text (C47_iff, C47_text_iff).
  C76 follows every end and slope through the reduction to the sigmoid it came from.
* C48-C54, C56, C70 real analysis: monotonicity, limits, derivatives (`HasDerivAt`), positive semidefiniteness.
* C79 a kernel is a tree and a parameter a place in it; the covariance is linear in what is in a place, with the weight the code hands down. Induction on places.
* C80 as C48-C54, with the derivative of each sigmoid moved; C81 invariant over writes.
* C82 refinement: `Move` (`Verif.Spec.Moves`) says rule by rule what may become of a node, in plain expressions; soundness by case distinction over the
  rules and completeness by building the position, both through contexts as C20, C21. Partial at bare left branches, where LIN meets C (see C02), and for
  `try_higher_curves` where SE stands in a sum within a sum (`C82_nested_curves`).
* C83 real analysis, arrays as functions of two indices; second derivatives in the code are zeros, which is wrong by both inputs.
* C84 the covariances a kernel object can take on are computed bottom up as sets and compared with those of C02; C85 induction on kernels, Schur complements.
* C86 induction on trees, along the steps of `simplify` as C07.
* C87 C40, C41 and C79 together: entries of `K(X)` as values of the terms read back from the fitted kernel (`Spec/Components`).
* C88 C34 (what is tested is reachable), C25 (no empty nodes), C84 (there is a kernel), C75 (interpretation); failures by explicit derivations. Fits are any
  function that gives the expression's kernel with some values (`FitsKernel`). C89 induction on rounds and derivations, with C23 and C67 (expansion respects equality).
* C90 invariant of expansion: sums of base kernels and at most one change operator; simplification of any tree of sums whose number of change operators, counted
  through sums in sums, is at most one gives this shape. `slim` and `tops` (Spec/Additive) state it without the model's helpers. The rest is C34 and C75.
* C91 invariant of expansion: fixed points of `simplify` in which kinds alternate; each growing rule's result simplifies to one (`Lemmas/Growing`). The rules left out
  (`replace_base`, `replace_with_singleton`, `remove_some_term`, and `try_higher_curves` on SE) leave the invariant in one step: `C91_others`.
* C92 `Model/Written`: `build` is the value of nested constructor calls (the tree that was written, each node made by its constructor), tied to the evaluator of
  printed expressions by `C92_written`. One call of `simplify` on it gives a fixed point, by induction on what was written.
* C93 the store programs refine the trees with identities (as C78), by induction over the list; each step changes only the objects of its own tree.
* C94 the run on objects is compared with the run on values, step by step: a variance is only ever deleted from a dictionary that is referred to once, because
  shared ones have none; frames (which dictionaries and lists may have changed) say what else is left alone.
* C95 induction over the tree: `reduce` and `traverse` are both modelled, on trees with identities and links (`Links`).
* C96 `predict` is modelled over the reals on top of the kernel matrices (`KernelTree`, `KernelCross`); the distribution function is that of Mathlib's `gaussianReal`, and
  scipy's `norm.ppf` is any function inverse to it on the open unit interval (`exists_ppf`: there is one). That variances are not negative is C85. With
  `include_likelihood = False` the claim is false (`C96_latent_wrong`: the low quantile is always too low).
* C97, C98 `Model/Bench`: tables over an ordered field, Python's division with its exception, the comprehension with its assignments and filters as a recursion; measured times are inputs.
  Merging by uniqueness of the sorted list when means differ.
* C55 objects in a store. C57-C62 utilities. C63, C64 scores and data. C65 start kernels.
* C99 `Model/Format`: rounding to the nearest hundredth, ties to even, then the digits. The meaning of a decimal text is specified apart (`Spec/Format`), and a text has one meaning at most.
* C100 `Spec/Shown` says when two sentences differ in numbers only. Texts are compared from the left: after what was read, the rest must agree, and no continuation reads
  like another, because numbers end before the first character that is not one of a number. Descriptions of equal texts are sentences so related.
* C101 `Model/UtilHash`: sets are `Finset`s and the order in which they are gone through is any. The `_h` functions are compared with the general ones, whose own
  meaning is C57 and C58. Partial: they differ where elements are repeated.
* C102 `Model/Samples`: random calls are functions of a seed and of the kernel, the plot is the list of its lines. Partial: the last curve is not drawn.
  `saveKernelSamples` is not modelled: it calls `savefig` of a plotnine plot.
* C103 `Model/DiagGrad`: gradients through the diagonal are those of a diagonal `dL_dK` (induction over the kernel), so that they are right follows from C79. Partial:
  which kernels raise is said exactly, by a predicate on kernels of its own.
* C104 `Spec/Complete`, `Lemmas/Complete`: every expression of the language (`InLanguage`: simplified, alternating, not empty, searched base kernels) is grown node by node. A seed (LIN + PER or LIN * LIN) at a place
  in the tree becomes any given node by induction over that node: its composite terms are added one by one as seeds and grown in turn, then its base terms, then the seed's own
  are removed. Each move is one rule at one occurrence, by C21. The Minimal rules have no removal (`Lemmas/CompleteMin`): a node starts with
  as many base kernels LIN as it has terms, each of which is exchanged for a base term or nested into a seed; a seed of the wrong kind goes by exchanging until white noise is left of
  it, which simplification merges with the node around it. Partial: the covariances are subject to the conditions of C02 and C92.
* C105 `Model/Vectorize`: Python's integers and floats as a sum type; the type of the first value decides. Partial: when the data are as asked for is decided exactly.
* C106 `Props/Sides`: the covariance of what is told (`toldWindow`) is compared with the kernel's (`shiftedSidesK`) in the middle of the window and in the limit. Partial: false with the flag.
* C40, C88 exactly (`Props/Matched`): `HasParams` says every base kernel of every node has values for all its parameters. Nested alike kinds lose some because GPy
flattens them and the names looked up do not exist (`Lemmas/ParamsBad`); this covers both `KeyError` and silently missing variances.
* C75, C88 with windows (`Props/MixedText`): composes C47's exact condition on texts with C75's components.
* C107 scores put into the search (`Props/Pareto.lean`): being sorted (C27) and the monotonicity of the scores (C63) give that no dominated model comes first. `LA_LOO` is the mean of numbers from GPy's `LOO`, which is not part of the repository; both conventions (losses, logarithms of densities) are treated. As far as is known GPy's `ExactGaussianInference.LOO` returns logarithms of densities, in which case `C107_loo_logs` applies and a search by `LA_LOO` puts the worst model first; that could not be checked here.
* C108 `Model/SearchObj`: the search once more, in the store of `Model/Objects`, with `deepcopy` of the start expressions and of each chunk of pickled models. `Spec/SearchObj` relates the two searches list by list (`Shows`) and says which trees are apart (`Apart`); `Lemmas/SearchObj*` carry both through fitting, copying, expansion (C78), `unique`, `not in`, sorting and `diff`, by induction over rounds. What is proved of searches over values (C27 to C34, C89, C104, C107) thereby holds of searches over objects; `C108_succeeds_partial` and `C108_distinct_partial` say so for two of them. Partial: conditions on start expressions if a rule removes terms.
* C109 `Model/Scored`: the search once more with scoring functions that may raise, have no name, or return values that do not compare, and with `sorted` as CPython
  does it (`count_run`, `binarysort`). For comparable values `sorted` is the stable sort (uniqueness of sorted lists with the same order inside each class), so the
  search is that of `Model/Search`; in general only that `sorted` permutes is used.
* C110 `Spec/Posterior` states the model that is fitted: jointly normal values of a function, with the kernel's covariances, and white noise (`Sampled`; `exists_sampled`: there
  are such random functions for every kernel and all inputs). `Lemmas/Posterior` proves the conditioning of normal vectors (Mathlib's `HasGaussianLaw`,
  `multivariateGaussian`): what is left after subtracting the prediction is uncorrelated with the data, hence independent. Coverage follows with C96. With
  `include_likelihood = False` the coverage is wrong (`C110_latent`).
* C111 `Model/PredictPart` is `predict` with `kern`. For a sum, independent functions for the parts (`SampledParts`; `exists_parts`) are conditioned on the observations of their sum,
  by the same lemma.
* C112 The same for the components of the description: C87 splits the fitted kernel into one matrix for each component, `SampledParts.sum` adds the functions,
  `exists_parts` makes them.
* C113 `Model/Likelihood` is the log-likelihood and `dL_dK` of exact inference. The density of a normal vector (`Lemmas/Density`: Mathlib has none) by the change of variables
  with the square root of the covariance matrix; its derivative by the covariances (`Lemmas/LikGrad`: determinant and inverse along lines), put into C79; that the true
  kernel is best on average by `log x ≤ x - 1`, with equality only for equal densities (`Lemmas/Gibbs`). Partial: exact lengthscales; gradients of change kernels' own
  parameters are wrong (C56), here for the likelihood itself (`C113_change_wrong`).
* C114 `Model/Saved` is `to_dict`. By induction two kernels without change operators with the same dictionary have the same covariances, so a reader exists; for change kernels
  two with the same dictionary and different covariances show that none does. Which dictionaries are JSON is decided by induction.
* C115 `Lemmas/Units` moves and scales the parameters of a kernel, by induction over it, such that its three matrices (`K(X)`, `K(X, X2)`, `Kdiag(X)`) follow the data. In products
  only the first base kernel has a variance, which takes up the factors of all; that there is one is shown for every kernel made of an expression. With fixed slopes a change from C to WN shows that the unit of the inputs matters.
* C116 The weights of the branches at a distance `d` are at most `1 / (1 + d / slope)` on the wrong side, by the formula of the sigmoid (`Lemmas/Fading`). Kernels without LIN are bounded,
  by induction, so what is left of them vanishes; others grow at most as their number of multiplied LIN says, and windows vanish fast enough for one. The sigmoid `x / (1 + |x|)` vanishes as slowly as a line grows, hence the counterexamples. `Lemmas/Reach` bounds covariances of all kernels from both sides by
  powers of the inputs, by induction, with the weights of changes as powers as well; a part fades just if its power is less than that of its weight.
* C117 The bounds of `Lemmas/Reach`, also between the data and far inputs (`up2_of`); the prediction is a sum of such covariances with weights that do not depend on the new input.
* C118 `left_out` (`Props/Loo`) solves the block system of a point and the others: the entry of `Ky⁻¹` is one over the predicted variance and that of `Ky⁻¹ y` the predicted error over it, both predicted from the other points by `Model/Predict`. `Spec/Loo` says what predicting from the others means, with Mathlib's normal density. Searches: C107's theorem for logarithms, whose hypothesis is now proved.
* C119 `Spec/Memory` reads a power off the expression, in `WithBot ℤ` (`⊥` fades faster than any power), and says what predicting from nothing is: `Model/Predict` with no data points. `Lemmas/Memory` carries the power through `to_kernel` and bounds `K(X, X2)` by every power no less than it (`mem_of`, by induction over kernels); predictions are sums of those with weights that do not depend on the new inputs. The converse (`Lemmas/MemoryKeep`) sets all parameters to 1 and looks at whole numbers, where no covariance is negative, so that lower bounds add and multiply as well.
* C120 What data explain of a combination of values is the greatest of `2 w·k - w·A w` over weights `w` of the data (`best_weights`, `best_attained`); weights of a part of the data are weights of all that are zero on the others, and noise only adds to `A`.
* C121 `Spec/Attain`, `Lemmas/Attain`: covariances of the operand are limits of those of the result (a vanishing variance beside it, a base kernel that tends to 1, a change moved away from all inputs), the families being those of C13, C14 and C18; by C84 they are those of fitted kernels, and the log-likelihood is continuous where the matrix is regular. Within expressions: limits pass through sums, products and changes (`Lemmas/AttainDeep`), and the expansions are those of C20, C21, C24 and C25.
* C122 `Spec/Unbounded`: determinant and inverse of noise plus one outer product (`rank_one`) with the noise going to 0; sums by C121, zeros by C115; the bound from the eigenvalues of the covariance matrix being at least the noise. The 1e-8 of GPy is part of `noise`.
* C123 The bound of C122 against the number of parameters of C86, which in a simplified expression (C03: a product has at most one of WN and C) is at least the number of base kernels; `Lemmas/Finite`: there are finitely many expressions of a length without empty or one-term nodes (C04), so the least of finitely many infima is that of the best expression, which C104 says wide searches test; AICc by its formula, and longer sums by C121.

## Findings

Places where the code does not do what the property says. Each has a theorem with a concrete witness.

| Finding | Where | Theorem |
|---|---|---|
| `simplify` is not idempotent: a sum inside a one-term product inside a sum is merged only by the next call | `commutative_base.py` | `C05_not_idempotent`, `C26_not_stable`, `C91_others` |
| a product with nothing but a product of constants in it becomes empty | `commutatives.py` | `C06_can_empty`, `C25_unsimplified_empties`, `C25_sigmoid_empties`, `C92_constant_lost` |
| LIN absorbs C (offset flag on), which changes the covariances that can be expressed | `commutatives.py` | `C02_lin_c_changes`, `C13_lin_c_differs` |
| swapping a base kernel for itself adds one | `kernelExpressionOperations.py` | `C17_swap_same_adds` |
| expanding a bare base kernel on the left of a change operator replaces the right branch | `change.py:38-43, 71-74` | `C20_left_leaf_slips`, `C21_left_leaf_missing` |
| verbose search raises `IndexError` when a printed list is empty | `modelSearch.py` | `C37_verbose_breaks` |
| a continued search changes the earlier search's lists, and reports old models | `modelSearch.py` | `C68_changes_earlier`, `C68_failed_continue`, `C69_continue_reports_old` |
| `interpret` describes an earlier fit after a refit | `model.py` | `C38_stale`, `C38_never_refreshed` |
| a score without `__name__` is cached under the name of the previous one | `model.py` | `C39_unnamed_score` |
| matching parameters of a product inside a product raises `KeyError` | `commutatives.py` | `C40_nested_keyerror` |
| `compare_implementations` drops functions too fast for the clock without a word, or raises `ZeroDivisionError` | `benchmarking.py:51-54` | `C97_dropped`, `C97_zero` |
| one round of the default search returns a model that cannot be interpreted (`AssertionError`) | `commutatives.py:39, 137` | `C88_default_raises` |
| three rounds can reach a sum in a sum, where variances are not found and told as 1, or `KeyError` is raised | `commutative_base.py:128-133` | `C88_wrong_variances`, `C88_minimal_keyerror` |
| LIN parameters are dropped where white noise multiplies LIN | `commutatives.py` | `C41_noise_lin`, `C43_lin_lost`, `C47_lin_untold` |
| lengthscale of SE * SE is wrong | `commutatives.py` | `C41_se` |
| `assert self.parameters` fails for nodes without base terms | `commutatives.py` | `C42_raises`, `C42_witness`, `C75_raises` |
| overlap of reversed windows reads missing keys | `kernelInterpretation.py` | `C45_raises`, `C45_raises_later` |
| mixed sigmoids: `TypeError`, `KeyError`, `None` entries, result depends on the order | `kernelInterpretation.py` | `C46_raises`, `C46_none`, `C46_order_matters`, `C47_nested_windows` |
| components whose sigmoids do not meet are told without any interval | `kernelInterpretation.py` | `C47_nowhere` |
| offset gradient is wrong for asymmetric `dL_dK` | `linearOffsetKernel.py` | `C51_offset_asymmetric` |
| lengthscale gradient of PER is approximate for short lengthscales; PER is then not a covariance function exactly | `periodicKernel.py` | `C53_lengthscale_gradient_inexact`, `C70_short_lengthscale` |
| change kernels compute with the branches they were given, while copies are optimised | `changeOperators.py` | `C55_branches_ignored`, `C55_witness` |
| location gradient of change points leaves out the first branch | `changeOperators.py` | `C56_wrong`, `C113_change_wrong` |
| saved change kernels have no location, slope or width | `changeOperators.py:39-47` | `C114_change_forgets`, `C114_change_lost` |
| the saved offset of a linear kernel is an array, not JSON | `linearOffsetKernel.py:49` | `C114_json_iff` |
| with fixed slopes (default) results of change operators depend on the unit of the inputs | `baseKernels.py:56-57`, `config.py` | `C115_inputs_wrong` |
| lines before a change point do not fade after it, parabolas grow there | `sigmoidalKernels.py:12-13`, `changeOperators.py:53-55` | `C116_line_remains`, `C116_parabola_grows`, `C116_window_parabola_remains`, `C116_prediction_remains` |
| AICc prefers a model with as many parameters as data points | `modelUtil.py` | `C63_aicc_reversed` |
| constructors leave the root links of children at the children | `base.py` | `C73_new_roots` |
| removing a term beside an equal change operator leaves a branch shared | `kernelExpressionOperations.py` | `C73_shared_branch` |
| the regular expression of `to_kernel_unrefined` turns `Sr` into `S()r` | `base.py:117-119` | `C10_sigmoids` |
| `repr` of an expression that simplification still changes evaluates to another expression | `commutative_base.py` | `C09_unstable` |
| slopes of bounded intervals are told only when slopes are fixed, always as 1, which the change kernels' slope is not | `kernelInterpretation.py`, `changeOperators.py:15, 88, 107` | `C76_windows_untold`, `C76_windows_one`, `C76_fixed_slope_wrong` |
| `add(k, k)`, `multiply(k, k)` and constructors given one object twice hold one copy of it in two places; expansion then changes both places at once | `commutative_base.py:15` | `C78_same_object` |
| of two equal change operators side by side the wrong one is replaced by a branch, which is then held twice; in a tree that is not simplified or has empty nodes expansion, and so a search, gives an extra result | `commutative_base.py`, `kernelExpressionOperations.py:120` | `C78_twins`, `C78_twins_simplified`, `C108_hollow` |
| `gradients_XX` and `gradients_XX_diag` are zero, the second derivatives are not | `linearKernel.py:118-146` | `C83_xx_wrong`, `C83_xx_diag_wrong` |
| location, slope and width gradients of three-part windows leave out the outer sigmoids; the commented-out summands would be wrong too | `changeWindowThreePart.py:106-108`, `changeWindowShiftedSides.py:111-113` | `C80_wrong`, `C80_comments_wrong` |
| a search can fit two expressions that print the same and have the same covariances: a product left in a product by a removal is not equal to the flat one | `commutative_base.py:29-30, 36-38`, `kernelExpressionOperations.py` | `C29_alike` |
| a search simplifies the caller's start expressions in place; given a term of another expression it raises `AssertionError` when expanding | `grammar.py:110-114`, `base.py:67-71` | `C93_given_changed`, `C93_part_raises` |
| `eq_elems_h` and `diff_h` differ from `eq_elems` and `diff` on lists with repetitions; `diff` stops at the first element that is not there | `genericUtil.py:99-115` | `C101_eq_elems_differ`, `C101_diff_differ` |
| with `__USE_INDEPENDENT_SIDES_CHANGEWINDOW_KERNEL` the components told of a window are not its kernel's, and the shift is not told | `baseKernels.py:65-66`, `kernelOperations.py:15` | `C106_wrong`, `C106_sides`, `C106_shift_untold` |
| synthetic data are cut off to whole numbers when the value at the first input is an integer | `dataAndPlottingUtil.py:28, 43, 50` | `C105_truncates` |
| `sampleCurves` never draws the last curve sampled | `kernelUtil.py:20-21` | `C102_last_missing` |
| `update_gradients_diag` raises `NotImplementedError` for kernels with change operators, and with LIN or PER by default | `sigmoidalKernels.py:62-63`, `linearOffsetKernel.py`, `periodicKernel.py` | `C103_change_raises`, `C103_default_raises` |
| with AICc and fewer data than parameters a search puts a model first that is less likely and has more parameters than another | `modelUtil.py:14` | `C107_aicc_wrong` |
| by AICc every model with at least as many parameters as data beats every one with at least two fewer, even at a log-likelihood lower by the number of data | `modelUtil.py:14` | `C123_aicc_wrong`, `C123_aicc_longer` |
| a search by `LA_LOO` puts the worst model first if GPy's `LOO` returns logarithms of densities | `modelUtil.py:15`, `modelSearch.py:88` | `C107_loo_logs` |
| the same with the formula GPy's `LOO` is known to have | `modelUtil.py:15`, `modelSearch.py:88` | `C118_search_worst_first` |
| far from the data predicted means go to zero, not to the level of the data, if the expression forgets (no mean function, outputs not centred) | `model.py:27` | `C119_zero` |
| `fit_mods_not_parallel` gives the user's own start expression objects to the returned models; with processes the models have copies | `modelSearch.py:39-45`, `95-97` | `C108_owned_partial` |
| a model whose score is `nan` can keep a worse model before a better one, and have it expanded | `modelSearch.py:88-89, 122-124` | `C109_nan` |
| scoring functions without `__name__` (`functools.partial`) make every search raise `AttributeError`, after fitting the start kernels if not verbose | `model.py:73`, `modelSearch.py:85` | `C109_unnamed`, `C109_unnamed_verbose` |
| with `include_likelihood = False` mean and covariance are about the function, the quantiles about new observations: the function lies below the low quantile less often than asked | `model.py:49-52` | `C96_latent_wrong`, `C110_latent` |
