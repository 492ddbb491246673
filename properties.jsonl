{"id": "C01", "title": "Expression equality is an equivalence that ignores term order", "statement": "`==` on kernel expressions is reflexive, symmetric and transitive, and two expressions compare equal exactly when they are the same expression up to reordering of the terms of sums and products at every level (order of the two branches of a change operator matters).", "quantifier": "all pairs and triples of kernel expressions of any depth and width", "why_tests_cant": "list removal with an overloaded == is only correct if == is already an equivalence at every depth; tests compare a handful of literals", "anchors": ["GPy_ABCD/KernelExpressions/commutative_base.py:SumOrProductKE.__eq__", "GPy_ABCD/KernelExpressions/change.py:ChangeKE.__eq__", "GPy_ABCD/Util/genericUtil.py:eq_elems"]}
{"id": "C02", "title": "Simplification preserves the set of representable covariances", "statement": "Building or simplifying a kernel expression does not change the set of covariance functions it can take on as its parameters vary over their allowed ranges (documented exception: a constant next to a horizontally-offset linear term is dropped).", "quantifier": "all expression trees, all parameter values, both settings of the linear-offset flag", "why_tests_cant": "equality of sets of functions over the reals, for every tree", "anchors": ["GPy_ABCD/KernelExpressions/commutatives.py:SumKE.simplify_base_terms", "GPy_ABCD/KernelExpressions/commutatives.py:ProductKE.simplify_base_terms", "GPy_ABCD/KernelExpressions/commutative_base.py:SumOrProductKE.simplify"]}
{"id": "C03", "title": "Canonical base terms after construction", "statement": "After construction every sum node contains at most one WN, at most one C, and no C beside LIN when the offset flag is on; every product node contains at most one WN, with WN nothing but LIN and sigmoids, at most one SE when WN is absent, and C at most once and only when every other factor is a base sigmoid.", "quantifier": "every node at every depth of every constructible expression, every flag setting", "why_tests_cant": "invariant over all reachable trees", "anchors": ["GPy_ABCD/KernelExpressions/commutatives.py:SumKE.simplify_base_terms", "GPy_ABCD/KernelExpressions/commutatives.py:ProductKE.simplify_base_terms"]}
{"id": "C04", "title": "No one-term wrappers below the root", "statement": "In a simplified expression no sum or product strictly below the root consists of exactly one term: one-term wrappers are replaced by their content.", "quantifier": "every node below the root of every simplified expression", "why_tests_cant": "structural invariant over unbounded trees", "anchors": ["GPy_ABCD/KernelExpressions/commutative_base.py:SumOrProductKE.absorb_singletons", "GPy_ABCD/KernelExpressions/change.py:ChangeKE.simplify"]}
{"id": "C05", "title": "Simplification is idempotent", "statement": "Simplifying an already simplified expression leaves it equal to itself.", "quantifier": "all expressions, including those returned by expansion", "why_tests_cant": "requires every interaction of flattening and singleton extraction; tests only use shallow trees", "anchors": ["GPy_ABCD/KernelExpressions/commutative_base.py:SumOrProductKE.simplify", "GPy_ABCD/KernelExpressions/base.py:KernelExpression._initialise"]}
{"id": "C06", "title": "Simplification never empties an expression", "statement": "Simplifying an expression all of whose sums and products have at least one term yields an expression all of whose sums and products have at least one term.", "quantifier": "all expression trees with non-empty nodes", "why_tests_cant": "the failing interaction needs a particular nesting depth and base term", "anchors": ["GPy_ABCD/KernelExpressions/commutative_base.py:SumOrProductKE.absorb_homogeneous_composites", "GPy_ABCD/KernelExpressions/commutatives.py:ProductKE.simplify_base_terms"]}
{"id": "C07", "title": "Simplification introduces nothing and never grows an expression", "statement": "Every base kernel occurring in the simplified expression occurs in the original, the change operators occurring are a subset of those of the original, and the total number of base-kernel occurrences does not increase.", "quantifier": "all expression trees", "why_tests_cant": "universally quantified over trees", "anchors": ["GPy_ABCD/KernelExpressions/commutative_base.py:SumOrProductKE.simplify"]}
{"id": "C08", "title": "Initialised trees have correct parent and root links", "statement": "After `_initialise()` every composite node's parent link is the node that holds it, every node's root link is the node `_initialise` was called on, and `_check_all_parents()` returns True.", "quantifier": "all expression trees whatever the links were before", "why_tests_cant": "pointer invariant over all trees and all stale link states", "anchors": ["GPy_ABCD/KernelExpressions/base.py:KernelExpression._initialise", "GPy_ABCD/KernelExpressions/commutative_base.py:SumOrProductKE._set_all_parents", "GPy_ABCD/KernelExpressions/commutative_base.py:SumOrProductKE.extract_if_singleton"]}
{"id": "C09", "title": "The repr of an expression evaluates back to an equal expression", "statement": "Evaluating `repr(k)` re-creates an expression equal to `k` for every expression `k` returned by a second simplification-stable construction.", "quantifier": "all simplification-stable expressions", "why_tests_cant": "round trip over all trees; tests try five", "anchors": ["GPy_ABCD/KernelExpressions/commutative_base.py:SumOrProductKE.__repr__", "GPy_ABCD/KernelExpressions/change.py:ChangeKE.__repr__"]}
{"id": "C10", "title": "The printed form means the expression", "statement": "Reading `str(k)` with the usual precedence of + and * and call syntax denotes the same covariance as `k` itself, so that `to_kernel_unrefined()` and `to_kernel()` build the same covariance.", "quantifier": "all non-empty expressions, all interpretations of the base kernels", "why_tests_cant": "bracketing must be right at every nesting", "anchors": ["GPy_ABCD/KernelExpressions/commutative_base.py:SumOrProductKE.__str__", "GPy_ABCD/KernelExpressions/commutatives.py:ProductKE.bracket_if_needed", "GPy_ABCD/KernelExpressions/base.py:KernelExpression.to_kernel_unrefined"]}
{"id": "C11", "title": "Stationarity test is sound", "statement": "If `is_stationary()` returns True then every covariance the expression can represent depends only on the difference of its inputs; an expression containing a change operator is never reported stationary.", "quantifier": "all expressions and all parameter values", "why_tests_cant": "statement about all covariance functions in a family", "anchors": ["GPy_ABCD/KernelExpressions/commutative_base.py:SumOrProductKE.is_stationary", "GPy_ABCD/KernelExpressions/change.py:ChangeKE.is_stationary"]}
{"id": "C12", "title": "contains_base reports exactly the occurring base kernels", "statement": "`contains_base(bts)` is True exactly when one of the given base kernels occurs somewhere in the expression.", "quantifier": "all expressions and all lists of base kernels", "why_tests_cant": "unbounded trees", "anchors": ["GPy_ABCD/KernelExpressions/commutative_base.py:SumOrProductKE.contains_base", "GPy_ABCD/KernelExpressions/change.py:ChangeKE.contains_base"]}
{"id": "C13", "title": "add builds the sum", "statement": "The first result of adding two operands (base-kernel strings or expressions of any type) represents exactly the pointwise sums of a covariance of each operand.", "quantifier": "all pairs of operands of all types", "why_tests_cant": "ten type combinations times unbounded operands", "anchors": ["GPy_ABCD/KernelExpansion/kernelExpressionOperations.py:add"]}
{"id": "C14", "title": "multiply builds the product", "statement": "The first result of multiplying two operands represents exactly the pointwise products of a covariance of each operand.", "quantifier": "all pairs of operands of all types", "why_tests_cant": "ten type combinations times unbounded operands", "anchors": ["GPy_ABCD/KernelExpansion/kernelExpressionOperations.py:multiply"]}
{"id": "C15", "title": "Nested results of add and multiply touch exactly one term", "statement": "Adding a base kernel to a product returns, besides the sum, for every base-term occurrence one product in which exactly that factor f is replaced by (f + B); multiplying a base kernel with a sum returns, besides the product, for every base-term occurrence one sum in which exactly that addend a is replaced by a * B.", "quantifier": "all products/sums and all base kernels", "why_tests_cant": "for every term list", "anchors": ["GPy_ABCD/KernelExpansion/kernelExpressionOperations.py:add", "GPy_ABCD/KernelExpansion/kernelExpressionOperations.py:multiply"]}
{"id": "C16", "title": "add and multiply are commutative up to equality", "statement": "Swapping the operands of add or multiply gives results that compare equal, position by position.", "quantifier": "all pairs of operands", "why_tests_cant": "depends on == being an equivalence and on simplification respecting it", "anchors": ["GPy_ABCD/KernelExpansion/kernelExpressionOperations.py:add", "GPy_ABCD/KernelExpansion/kernelExpressionOperations.py:multiply"]}
{"id": "C17", "title": "Replacing and removing terms does exactly that", "statement": "swap_base on a sum or product returns one result per distinct base kernel present, with one occurrence of it replaced by B; remove_a_term on an n-term (n>1) sum or product returns one result per distinct base kernel and per composite term with exactly that term removed, on a change operator its two branches, and nothing on a one-term node.", "quantifier": "all sums, products and change nodes, all base kernels", "why_tests_cant": "unbounded term lists", "anchors": ["GPy_ABCD/KernelExpansion/kernelExpressionOperations.py:swap_base", "GPy_ABCD/KernelExpansion/kernelExpressionOperations.py:remove_a_term"]}
{"id": "C18", "title": "Change operators wrap both ways", "statement": "both_changes(S, S2) returns CP and CW of (S, S2) and (S2, S), collapsing to one of each when S2 is absent or equal to S; one_change does so for a single operator.", "quantifier": "all operands", "why_tests_cant": "depends on expression equality for all operands", "anchors": ["GPy_ABCD/KernelExpansion/kernelExpressionOperations.py:both_changes", "GPy_ABCD/KernelExpansion/kernelExpressionOperations.py:one_change"]}
{"id": "C19", "title": "Expansion returns pairwise different expressions", "statement": "No two expressions returned by one expansion compare equal.", "quantifier": "all expressions and all lists of production rules", "why_tests_cant": "all trees and rules", "anchors": ["GPy_ABCD/KernelExpansion/grammar.py:expand", "GPy_ABCD/Util/genericUtil.py:unique"]}
{"id": "C20", "title": "Expansion changes one node and leaves the rest alone", "statement": "Every expression returned by expansion is the original with exactly one node (including a bare base kernel that is a branch of a change operator) replaced by a result of a production rule applied to that node, then simplified.", "quantifier": "all expressions, all nodes, all production rules", "why_tests_cant": "requires object-identity reasoning for every position in every tree", "anchors": ["GPy_ABCD/KernelExpansion/grammar.py:expand", "GPy_ABCD/KernelExpressions/base.py:KernelExpression.new_tree_with_self_replaced", "GPy_ABCD/KernelExpressions/change.py:ChangeKE.reassign_child", "GPy_ABCD/KernelExpressions/change.py:ChangeKE.traverse"]}
{"id": "C21", "title": "Expansion is complete", "statement": "For every node of the expression, every production rule given and every result of that rule at that node, an expression equal to the original with that node so replaced (and simplified) is in the expansion.", "quantifier": "all expressions, nodes and rules", "why_tests_cant": "all trees", "anchors": ["GPy_ABCD/KernelExpansion/grammar.py:expand", "GPy_ABCD/KernelExpansion/grammar.py:expand_node"]}
{"id": "C22", "title": "Expansion stays inside the grammar's base kernels", "statement": "Every base kernel in an expanded expression either occurs in the original or is one of the production base kernels (SE only when enabled) or LIN, PER or C introduced by a rule; sigmoidal base kernels never appear.", "quantifier": "all expressions, all built-in production rules, both SE flag settings", "why_tests_cant": "all trees and rules", "anchors": ["GPy_ABCD/KernelExpansion/grammar.py:base_kerns_for_prod", "GPy_ABCD/KernelExpansion/grammar.py:production_rules_by_type"]}
{"id": "C23", "title": "Set iteration order does not change the expansion", "statement": "The set of expressions returned by an expansion (up to equality) does not depend on the iteration order of the sets of base kernels.", "quantifier": "all expressions, rules and all iteration orders of the base-kernel sets", "why_tests_cant": "hash-order nondeterminism across processes", "anchors": ["GPy_ABCD/KernelExpansion/grammar.py:plus_base", "GPy_ABCD/KernelExpansion/grammar.py:times_base", "GPy_ABCD/KernelExpansion/grammar.py:expand"]}
{"id": "C24", "title": "Expanded roots are standardised", "statement": "Every expanded expression is a change operator, a sum of one base kernel, or a sum or product that is not a one-term wrapper; standardisation terminates.", "quantifier": "all expressions and rules", "why_tests_cant": "recursion over unbounded nesting of wrappers", "anchors": ["GPy_ABCD/KernelExpansion/grammar.py:standardise_singleton_root"]}
{"id": "C25", "title": "Expansion never yields an empty expression", "statement": "Expanding an expression without empty sums or products yields only expressions without empty sums or products, so every candidate can be turned into a kernel.", "quantifier": "all well-formed expressions and all built-in rules", "why_tests_cant": "all trees and rules", "anchors": ["GPy_ABCD/KernelExpansion/grammar.py:expand", "GPy_ABCD/KernelExpressions/commutatives.py:SumKE.to_kernel", "GPy_ABCD/KernelExpressions/commutatives.py:ProductKE.to_kernel"]}
{"id": "C26", "title": "Expansion results are simplification-stable and print differently", "statement": "Expressions returned by expansion are fully simplified: simplifying again changes nothing, and two different results of an expansion have different printed forms.", "quantifier": "all expressions and rules", "why_tests_cant": "needs specific three-level nestings", "anchors": ["GPy_ABCD/KernelExpansion/grammar.py:standardise_singleton_root", "GPy_ABCD/KernelExpressions/commutative_base.py:SumOrProductKE.simplify"]}
{"id": "C27", "title": "Search results are all the tested models, best first", "statement": "The first returned list contains exactly the models of all rounds, each once, sorted by non-decreasing utility.", "quantifier": "all data, start kernels, rules, scores, rounds, beams and fitting outcomes", "why_tests_cant": "all histories of fits", "anchors": ["GPy_ABCD/Models/modelSearch.py:explore_model_space", "GPy_ABCD/Models/modelSearch.py:model_search_rounds"]}
{"id": "C28", "title": "Expanded and not-expanded partition the tested models", "statement": "At the end of the search the expanded and not-expanded lists together contain every tested model exactly once; no model is expanded twice.", "quantifier": "all search histories", "why_tests_cant": "all histories", "anchors": ["GPy_ABCD/Models/modelSearch.py:model_search_rounds", "GPy_ABCD/Util/genericUtil.py:diff"]}
{"id": "C29", "title": "No kernel expression is fitted twice", "statement": "Provided the start kernels are pairwise different, no two models fitted during a search have equal kernel expressions, and the returned list of tested expressions lists exactly the expressions of the fitted models.", "quantifier": "all search histories", "why_tests_cant": "all histories and expansions", "anchors": ["GPy_ABCD/Models/modelSearch.py:model_search_rounds", "GPy_ABCD/Util/genericUtil.py:unique"]}
{"id": "C30", "title": "Each round expands exactly the beam's best unexpanded models", "statement": "In round r the models expanded are the first b_r of the not-yet-expanded models in utility order: fewer only when fewer remain, and none of the others has a smaller utility.", "quantifier": "all histories, all beam values", "why_tests_cant": "all histories", "anchors": ["GPy_ABCD/Models/modelSearch.py:model_search_rounds"]}
{"id": "C31", "title": "Beam argument handling", "statement": "An integer beam is used in every round; a list shorter than the number of rounds is padded with its last value and a longer one truncated, so its length equals the number of rounds; an empty list with at least one round is an error.", "quantifier": "all beam arguments and round counts", "why_tests_cant": "all lists and integers", "anchors": ["GPy_ABCD/Models/modelSearch.py:explore_model_space"]}
{"id": "C32", "title": "More rounds never worsen the best model", "statement": "The utility of the first returned model is the minimum over all tested models and never increases from one round to the next.", "quantifier": "all histories", "why_tests_cant": "all histories and fit outcomes", "anchors": ["GPy_ABCD/Models/modelSearch.py:model_search_rounds"]}
{"id": "C33", "title": "Continuing a search equals a longer search", "statement": "Running r1 rounds and then continuing with model_search_rounds for r2 more rounds gives the same five outputs as running r1+r2 rounds at once with the concatenated beams, for the same fitting outcomes.", "quantifier": "all r1, r2, beams and fit outcomes", "why_tests_cant": "compositionality over histories", "anchors": ["GPy_ABCD/Models/modelSearch.py:model_search_rounds"]}
{"id": "C34", "title": "Every later candidate comes from an expanded model", "statement": "Every kernel expression tested after round 0 is in the expansion of the kernel expression of a model expanded in that same round, and was not tested before.", "quantifier": "all histories", "why_tests_cant": "all histories", "anchors": ["GPy_ABCD/Models/modelSearch.py:model_search_rounds"]}
{"id": "C35", "title": "Fit retries are bounded and honest", "statement": "fit_one_model attempts at most max_retries+1 fits (at least one), returns the first successful one, issues exactly one warning per failed attempt that is retried, and raises the last error only after all attempts failed.", "quantifier": "all sequences of fit outcomes and all max_retries, including negative ones", "why_tests_cant": "all failure sequences", "anchors": ["GPy_ABCD/Models/modelSearch.py:fit_one_model"]}
{"id": "C36", "title": "Parallel and sequential fitting return the same list", "statement": "Fitting a list of kernels in parallel chunks returns one model per kernel in the order of the kernels, like sequential fitting, for any number of processors and any schedule of the chunks; the chunk size is always at least one and there are never more chunks than processors.", "quantifier": "all kernel lists, processor counts and chunk completion orders", "why_tests_cant": "all schedules", "anchors": ["GPy_ABCD/Models/modelSearch.py:fit_mods_parallel_processes", "GPy_ABCD/Models/modelSearch.py:fit_mods_not_parallel"]}
{"id": "C37", "title": "Verbose reporting does not change or break a search", "statement": "Turning verbose output on changes neither the outcome of a search nor whether it succeeds.", "quantifier": "all searches, rounds and beams, including empty rounds", "why_tests_cant": "corner cases of empty lists", "anchors": ["GPy_ABCD/Models/modelSearch.py:print_k_list", "GPy_ABCD/Models/modelSearch.py:explore_model_space"]}
{"id": "C38", "title": "interpret describes the latest fit", "statement": "After any sequence of calls on a model, interpret() and sum_of_prods_kex describe the parameters of the most recent fit.", "quantifier": "all call sequences on a model object", "why_tests_cant": "history property", "anchors": ["GPy_ABCD/Models/model.py:GPModel.sum_of_prods_kex", "GPy_ABCD/Models/model.py:GPModel.fit"]}
{"id": "C39", "title": "Model object protocol", "statement": "sum_of_prods_kex and interpret raise ValueError until a fit has been made and never change the model's kernel expression; fit without a restarts value fails exactly when no restarts value was ever given and otherwise reuses the last one; the cached utility always belongs to the cached utility name of the last scoring.", "quantifier": "all call sequences on a model object", "why_tests_cant": "history property", "anchors": ["GPy_ABCD/Models/model.py:GPModel"]}
{"id": "C40", "title": "Fitted parameters land on the right terms", "statement": "For a kernel built from an expression, matching its flat parameter dictionary back onto the expression gives every term exactly the parameter values of the kernel component built from that term, with one variance per product.", "quantifier": "all expressions that are simplification-stable and all parameter values", "why_tests_cant": "name disambiguation over unboundedly many repeated siblings", "anchors": ["GPy_ABCD/KernelExpressions/commutative_base.py:SumOrProductKE.match_up_fit_parameters", "GPy_ABCD/KernelExpressions/commutatives.py:ProductKE.match_up_fit_parameters", "GPy_ABCD/KernelExpressions/change.py:ChangeKE.match_up_fit_parameters", "GPy_ABCD/KernelExpansion/kernelOperations.py:get_param_dict"]}
{"id": "C41", "title": "The sum-of-products form is the same covariance", "statement": "The sum-of-products form produced for a fitted expression evaluates, at every pair of inputs, to the covariance of the fitted expression itself.", "quantifier": "all expressions with parameters, all inputs", "why_tests_cant": "algebraic identity over all trees and reals", "anchors": ["GPy_ABCD/KernelExpressions/commutatives.py:SumKE.sum_of_prods_form", "GPy_ABCD/KernelExpressions/commutatives.py:ProductKE.sum_of_prods_form", "GPy_ABCD/KernelExpressions/change.py:ChangeKE.sum_of_prods_form", "GPy_ABCD/KernelExpressions/commutatives.py:ProductKE.new_bases_with_parameters"]}
{"id": "C42", "title": "Every fitted model can be interpreted", "statement": "interpret() on a fitted model returns a description and does not raise.", "quantifier": "all expressions produced by a search", "why_tests_cant": "needs trees with nodes that have no base terms", "anchors": ["GPy_ABCD/KernelExpressions/commutatives.py:SumKE.sum_of_prods_form", "GPy_ABCD/KernelExpressions/base.py:KernelExpression.get_interpretation"]}
{"id": "C43", "title": "Shape and number of components", "statement": "The sum-of-products form is a sum with no base terms whose terms are all products without composite terms, and its number of terms is: 1 for a base kernel or pure product, the sum over terms for a sum, the product over factors for a product, and the sum over branches for a change operator.", "quantifier": "all expressions with parameters", "why_tests_cant": "all trees", "anchors": ["GPy_ABCD/KernelExpressions/commutatives.py:ProductKE.sum_of_prods_form"]}
{"id": "C44", "title": "Sigmoid overlaps are interval intersections", "statement": "Reducing several same-direction sigmoids (or several sigmoidal windows) to one interval gives exactly the intersection of the individual intervals; disjoint windows give no interval.", "quantifier": "all non-empty parameter lists over an ordered field", "why_tests_cant": "all lists of reals", "anchors": ["GPy_ABCD/KernelExpansion/kernelInterpretation.py:S_overlap", "GPy_ABCD/KernelExpansion/kernelInterpretation.py:Sr_overlap", "GPy_ABCD/KernelExpansion/kernelInterpretation.py:SI_overlap"]}
{"id": "C45", "title": "Hole overlaps are intersections of complements", "statement": "Reducing several reversed windows gives a list of intervals whose union is exactly the set of points outside all windows, without raising.", "quantifier": "all non-empty lists of windows in any order", "why_tests_cant": "order-dependent failure", "anchors": ["GPy_ABCD/KernelExpansion/kernelInterpretation.py:SIr_overlap", "GPy_ABCD/KernelExpansion/kernelInterpretation.py:intersect_semiline_hole", "GPy_ABCD/KernelExpansion/kernelInterpretation.py:intersect_segment_hole"]}
{"id": "C46", "title": "Mixed sigmoids reduce to the intersection", "statement": "Reducing a mixture of the four sigmoid kinds gives a description of exactly the intersection of their regions, without raising, whatever the order in which they appear.", "quantifier": "all subsets of the four kinds, all parameters, all orders", "why_tests_cant": "many type combinations and orderings over reals", "anchors": ["GPy_ABCD/KernelExpansion/kernelInterpretation.py:simplify_sigmoidal_intervals", "GPy_ABCD/KernelExpansion/kernelInterpretation.py:simplify_sigmoidal_interval_pair"]}
{"id": "C47", "title": "Component descriptions are total on pure products", "statement": "For every component of a sum-of-products form the sentence generator names a first term and modifiers without raising an unexpected-term error, and mentions every non-sigmoid base kernel of the component exactly once.", "quantifier": "all components", "why_tests_cant": "all base-term combinations", "anchors": ["GPy_ABCD/KernelExpansion/kernelInterpretation.py:base_factors_interpretation", "GPy_ABCD/KernelExpansion/kernelInterpretation.py:first_term_interpretation", "GPy_ABCD/KernelExpansion/kernelInterpretation.py:postmodifier_interpretation"]}
{"id": "C48", "title": "Sigmoid basis functions are complementary and monotone", "statement": "The sigmoid takes values strictly between 0 and 1, is strictly increasing, equals 1/2 at its location, and the reversed sigmoid is one minus it.", "quantifier": "all real inputs, locations and positive slopes", "why_tests_cant": "over the reals", "anchors": ["GPy_ABCD/Kernels/sigmoidalKernels.py:_sigmoid_function", "GPy_ABCD/Kernels/sigmoidalKernels.py:_phi_S"]}
{"id": "C49", "title": "Sigmoidal windows are normalised hats", "statement": "The sigmoidal indicator is strictly positive, at most 1, equals 1 at the middle of the window, is symmetric about it, and the reversed one is one minus it, for positive width and slope.", "quantifier": "all reals", "why_tests_cant": "inequality over the reals", "anchors": ["GPy_ABCD/Kernels/sigmoidalKernels.py:_phi_SI"]}
{"id": "C50", "title": "Change kernels are covariances", "statement": "If the two sub-kernels are symmetric positive semidefinite then so are the changepoint and changewindow kernels, and Kdiag is the diagonal of K.", "quantifier": "all finite sets of inputs, all parameter values", "why_tests_cant": "all sizes of input sets", "anchors": ["GPy_ABCD/Kernels/changeOperators.py:ChangeKernelBase.K", "GPy_ABCD/Kernels/changeOperators.py:ChangeKernelBase.Kdiag"]}
{"id": "C51", "title": "Linear-with-offset gradients", "statement": "The variance and offset gradients computed by the linear-with-offset kernel are the derivatives of sum(dL_dK * K) with respect to variance and offset.", "quantifier": "all numbers of inputs, all inputs and parameters, all dL_dK", "why_tests_cant": "broadcasting makes shape-dependent errors", "anchors": ["GPy_ABCD/Kernels/linearOffsetKernel.py:LinearWithOffset.update_gradients_full"]}
{"id": "C52", "title": "Sigmoid kernel gradients", "statement": "The location, slope and width gradients computed by the sigmoidal and sigmoidal-indicator kernels are the derivatives of sum(dL_dK * K).", "quantifier": "all numbers of inputs, all inputs and parameters, symmetric dL_dK", "why_tests_cant": "calculus over the reals", "anchors": ["GPy_ABCD/Kernels/sigmoidalKernels.py:_update_gradients_full_S_1", "GPy_ABCD/Kernels/sigmoidalKernels.py:_update_gradients_full_SI"]}
{"id": "C53", "title": "Purely periodic kernel", "statement": "The purely periodic kernel is symmetric, stationary, periodic with its period, has diagonal equal to its variance, and its computed period and lengthscale gradients are the derivatives of K in the two non-limit regimes.", "quantifier": "all reals, all positive parameters", "why_tests_cant": "calculus over the reals", "anchors": ["GPy_ABCD/Kernels/periodicKernel.py:PureStdPeriodicKernel.K", "GPy_ABCD/Kernels/periodicKernel.py:PureStdPeriodicKernel.Kdiag", "GPy_ABCD/Kernels/periodicKernel.py:PureStdPeriodicKernel.update_gradients_full"]}
{"id": "C54", "title": "Difference of scaled Bessel approximations", "statement": "The polynomial used for the difference of the two scaled Bessel approximations is exactly the difference of the two polynomials.", "quantifier": "all positive reals", "why_tests_cant": "identity for all reals", "anchors": ["GPy_ABCD/Kernels/periodicKernel.py:_embi0", "GPy_ABCD/Kernels/periodicKernel.py:_embi1", "GPy_ABCD/Kernels/periodicKernel.py:_embi0min1"]}
{"id": "C55", "title": "Change kernels use the parameters that are optimised", "statement": "The covariance of a change kernel depends on the branch parameters exposed to the optimiser.", "quantifier": "all change kernels and all branch parameter updates", "why_tests_cant": "object identity of copied sub-kernels", "anchors": ["GPy_ABCD/Kernels/changeOperators.py:ChangeKernelBase.__init__", "GPy_ABCD/Kernels/changeOperators.py:ChangeKernelBase.K"]}
{"id": "C56", "title": "Change kernel location gradient", "statement": "The location gradient of a changepoint kernel is the derivative of sum(dL_dK * K) with respect to the location.", "quantifier": "all inputs and parameters", "why_tests_cant": "calculus over the reals", "anchors": ["GPy_ABCD/Kernels/changeOperators.py:ChangeKernelBase.update_gradients_full"]}
{"id": "C57", "title": "unique keeps first occurrences", "statement": "unique returns a sublist of its input in which no two elements are equal and every input element has an equal representative, namely its first occurrence.", "quantifier": "all lists over any type with an equivalence", "why_tests_cant": "all lists", "anchors": ["GPy_ABCD/Util/genericUtil.py:unique"]}
{"id": "C58", "title": "eq_elems and diff are multiset operations", "statement": "eq_elems decides equality as multisets; diff removes for every element of the second list one occurrence from the first, stopping silently at the first element that is absent.", "quantifier": "all lists over any type with an equivalence", "why_tests_cant": "all lists", "anchors": ["GPy_ABCD/Util/genericUtil.py:eq_elems", "GPy_ABCD/Util/genericUtil.py:diff"]}
{"id": "C59", "title": "topological_sort is correct and complete", "statement": "topological_sort returns every node exactly once with every dependency before its dependents, and raises exactly when no such order exists (a cycle or a dependency on a missing node).", "quantifier": "all finite dependency lists", "why_tests_cant": "all graphs", "anchors": ["GPy_ABCD/Util/genericUtil.py:topological_sort", "GPy_ABCD/Util/genericUtil.py:foldq"]}
{"id": "C60", "title": "Consumption fold generalises fold", "statement": "foldq with an always-true condition and no update is the left fold and consumes everything; the elements it consumes satisfy the condition and foldq_ raises exactly when elements are left over.", "quantifier": "all functions and lists", "why_tests_cant": "all higher-order arguments", "anchors": ["GPy_ABCD/Util/genericUtil.py:foldq", "GPy_ABCD/Util/genericUtil.py:foldq_"]}
{"id": "C61", "title": "List utilities", "statement": "partition splits a list into the satisfying and non-satisfying elements in order; group_by groups every element once under its key in order; flatten of chunk is the identity and all chunks but the last have the requested size; update_dict_with combines values exactly at common keys.", "quantifier": "all lists and functions", "why_tests_cant": "all inputs", "anchors": ["GPy_ABCD/Util/genericUtil.py:partition", "GPy_ABCD/Util/genericUtil.py:group_by", "GPy_ABCD/Util/genericUtil.py:chunk", "GPy_ABCD/Util/genericUtil.py:update_dict_with"]}
{"id": "C62", "title": "interval_overlap is the length of the intersection", "statement": "interval_overlap of two intervals is symmetric, non-negative, at most either length, and is the length of their intersection.", "quantifier": "all pairs of intervals over the reals", "why_tests_cant": "over the reals", "anchors": ["GPy_ABCD/Util/genericUtil.py:interval_overlap"]}
{"id": "C63", "title": "Score functions", "statement": "BIC, AIC and AICc strictly decrease in the log-likelihood and strictly increase in the number of parameters within their valid range (n > 1 for BIC, n > k+1 for AICc), AICc is at least AIC there and tends to it, and outside that range AICc's ordering is not monotone in the number of parameters.", "quantifier": "all log-likelihoods, data sizes and parameter counts", "why_tests_cant": "over the reals", "anchors": ["GPy_ABCD/Util/modelUtil.py:BIC", "GPy_ABCD/Util/modelUtil.py:AIC", "GPy_ABCD/Util/modelUtil.py:AICc"]}
{"id": "C64", "title": "Lined-up synthetic data are continuous", "statement": "With line_up the generated changepoint and changewindow functions are continuous whenever both pieces are, and without it they agree with the pieces on their own regions.", "quantifier": "all continuous pieces and locations", "why_tests_cant": "over the reals", "anchors": ["GPy_ABCD/Util/dataAndPlottingUtil.py:cp_f_maker", "GPy_ABCD/Util/dataAndPlottingUtil.py:cw_f_maker"]}
{"id": "C65", "title": "Start kernels are well-formed", "statement": "Every built-in start kernel is simplification-stable, pairwise different within its group, uses only base kernels, and the groups contain exactly the expressions they are documented to contain; a user list of base-kernel names and expressions is accepted exactly when every name is a base kernel.", "quantifier": "the built-in groups under every flag setting; all user lists", "why_tests_cant": "all user lists and flag settings", "anchors": ["GPy_ABCD/KernelExpansion/grammar.py:start_kernels", "GPy_ABCD/KernelExpansion/grammar.py:make_simple_kexs", "GPy_ABCD/KernelExpansion/grammar.py:pseudo_to_real_kex"]}
{"id": "C66", "title": "Operations respect equality", "statement": "Simplifying equal expressions gives equal expressions, and adding or multiplying equal operands gives equal results, so which of several equal representatives an operation receives never matters.", "quantifier": "all pairs of equal expressions and operands", "why_tests_cant": "all reorderings of all expressions", "anchors": ["GPy_ABCD/KernelExpressions/commutative_base.py:SumOrProductKE.simplify", "GPy_ABCD/KernelExpansion/kernelExpressionOperations.py:add", "GPy_ABCD/KernelExpansion/kernelExpressionOperations.py:multiply"]}
{"id": "C67", "title": "Expansion respects equality", "statement": "Expanding two equal expressions with the same rules gives the same results up to equality, so removing duplicates before expanding loses nothing.", "quantifier": "all pairs of equal expressions, all sets of built-in rules, all set iteration orders", "why_tests_cant": "all reorderings of all expressions", "anchors": ["GPy_ABCD/KernelExpansion/grammar.py:expand", "GPy_ABCD/KernelExpansion/grammar.py:production_rules", "GPy_ABCD/Util/genericUtil.py:unique"]}
{"id": "C68", "title": "Continuing a search leaves the earlier results intact", "statement": "Calling model_search_rounds with the five lists of an earlier search does not change those lists: a caller who kept them still sees the earlier results, also when the continued search fails half-way.", "quantifier": "all searches, continuations and fitting outcomes, including fits that give up", "why_tests_cant": "aliasing of returned lists over all histories", "anchors": ["GPy_ABCD/Models/modelSearch.py:model_search_rounds", "GPy_ABCD/Models/modelSearch.py:explore_model_space"]}
{"id": "C69", "title": "The verbose report names the round's own models", "statement": "The models reported as new in a round are the ones fitted in that round.", "quantifier": "all searches and continued searches", "why_tests_cant": "indexing over all histories", "anchors": ["GPy_ABCD/Models/modelSearch.py:model_search_rounds"]}
{"id": "C70", "title": "Kernels are covariance functions", "statement": "The kernel function of every expression, at every admissible parameter value, is symmetric and positive semidefinite, so that a Gaussian process with it exists and the noisy kernel matrix is positive definite.", "quantifier": "all expressions, all admissible parameter values, all finite sets of points", "why_tests_cant": "infinitely many expressions, points and weights; analysis over the reals", "anchors": ["GPy_ABCD/Kernels/baseKernels.py", "GPy_ABCD/Kernels/periodicKernel.py:PureStdPeriodicKernel.K", "GPy_ABCD/Kernels/sigmoidalKernels.py", "GPy_ABCD/Kernels/changeOperators.py:ChangeKernelBase.K", "GPy_ABCD/Kernels/linearOffsetKernel.py:LinearWithOffset.K"]}
{"id": "C71", "title": "Higher curves", "statement": "The higher-curve heuristic gives, for a sum, the sum plus a quadratic and the sum plus a cubic, for a product, the product times a quadratic, a cubic and a periodic curve, without their SE terms, and for a change operator or a string exactly the documented alternatives; every result is a valid expression.", "quantifier": "all expressions", "why_tests_cant": "infinitely many expressions", "anchors": ["GPy_ABCD/KernelExpansion/kernelExpressionOperations.py:higher_curves", "GPy_ABCD/KernelExpansion/grammar.py:try_higher_curves"]}
{"id": "C72", "title": "What one round of the default search explores", "statement": "One expansion of an expression with the default production rules contains, up to equality, the expression plus each searched base kernel, times each searched base kernel but the constant, each searched base kernel alone, times (each searched base kernel plus the constant), change points and windows with LIN on either side, the expression with any one term removed, and with any base term exchanged for another; and the same for any sub-expression replaced in place.", "quantifier": "all expressions, all set iteration orders", "why_tests_cant": "infinitely many expressions", "anchors": ["GPy_ABCD/KernelExpansion/grammar.py:production_rules", "GPy_ABCD/KernelExpansion/grammar.py:expand"]}
{"id": "C73", "title": "Trees stay trees under expansion", "statement": "Following the parent and root links of an initialised tree, replacing a visited node by a new one never raises, replaces exactly the visited node, and gives a tree whose links are right again; constructors give nodes with right parent links, and is_root is true of the root only and never raises in such a tree.", "quantifier": "all well-linked trees, all visited nodes, all new nodes, all link states of constructor arguments", "why_tests_cant": "pointer invariants over all trees and edit histories", "anchors": ["GPy_ABCD/KernelExpressions/base.py:KernelExpression.new_tree_with_self_replaced", "GPy_ABCD/KernelExpressions/base.py:KernelExpression.is_root", "GPy_ABCD/KernelExpressions/commutative_base.py:SumOrProductKE.reassign_child", "GPy_ABCD/KernelExpressions/change.py:ChangeKE.reassign_child", "GPy_ABCD/KernelExpansion/grammar.py:standardise_singleton_root"]}
{"id": "C74", "title": "Equal expressions have the same covariances", "statement": "Two expressions that the equality of expressions (used by the search to drop duplicates) identifies describe the same covariance family, so dropping one of them loses no model.", "quantifier": "all pairs of expressions", "why_tests_cant": "infinitely many pairs; order of terms at every depth", "anchors": ["GPy_ABCD/KernelExpressions/commutative_base.py:SumOrProductKE.__eq__", "GPy_ABCD/KernelExpressions/change.py:ChangeKE.__eq__", "GPy_ABCD/Util/genericUtil.py:unique"]}
{"id": "C75", "title": "Interpreting a fitted model", "statement": "After fitting, interpret() of a model with a stable expression returns one sentence per component; the components are those of the expression with the fitted parameters of its kernel, each sentence says what it should of its component, and the covariances of the components add up to the covariance of the fitted kernel.", "quantifier": "all stable expressions, all fitted parameter values", "why_tests_cant": "infinitely many expressions and values; several stages (building, naming, matching, multiplying out, telling) have to agree", "anchors": ["GPy_ABCD/Models/model.py:GPModel.interpret", "GPy_ABCD/Models/model.py:GPModel.sum_of_prods_kex", "GPy_ABCD/KernelExpansion/kernelOperations.py:fit_ker_to_kex_with_params", "GPy_ABCD/KernelExpressions/base.py:KernelExpression.get_interpretation"]}
{"id": "C76", "title": "Ends and slopes in descriptions", "statement": "Every start and end told in a description is that of a sigmoid (change location, or location plus width) of the described component, and every change slope told is the slope of a sigmoid with that start or end; slopes are told for all intervals alike.", "quantifier": "all components with all sigmoids, both slope settings, all values", "why_tests_cant": "infinitely many combinations of overlapping sigmoids and values", "anchors": ["GPy_ABCD/KernelExpansion/kernelInterpretation.py:sigmoids_to_intervals", "GPy_ABCD/KernelExpansion/kernelInterpretation.py:simplify_sigmoidal_intervals", "GPy_ABCD/KernelExpansion/kernelInterpretation.py:postmodifier_interpretation"]}
{"id": "C77", "title": "Operators and expansion leave their arguments alone", "statement": "Constructors, the operators on expressions, new_tree_with_self_replaced and expand change no object that existed before the call, whatever is shared or linked and also when they raise; nothing reachable from an expansion or from the result of a constructor or operator existed before, so later changes to results cannot reach the arguments. Only replace_node and remove_a_term may return existing objects.", "quantifier": "all stores of objects, including shared and cyclic ones, all arguments, all rule lists and iteration orders", "why_tests_cant": "aliasing: every sharing pattern between arguments, results and links would have to be tried, and a violation shows only in a later use of the argument", "anchors": ["GPy_ABCD/KernelExpansion/kernelExpressionOperations.py:add", "GPy_ABCD/KernelExpansion/kernelExpressionOperations.py:higher_curves", "GPy_ABCD/KernelExpansion/kernelExpressionOperations.py:remove_a_term", "GPy_ABCD/KernelExpansion/grammar.py:expand", "GPy_ABCD/KernelExpressions/commutative_base.py:SumOrProductKE.__init__", "GPy_ABCD/KernelExpressions/change.py:ChangeKE.__init__", "GPy_ABCD/KernelExpressions/base.py:KernelExpression.new_tree_with_self_replaced"]}
{"id": "C78", "title": "Objects do what values do", "statement": "Although expressions are mutable objects with parent and root links that constructors copy and operators edit in place, what is seen of them is what plain values would give: constructors followed by _initialise, add, multiply, the change and unary operators, traverse and expand (any number of rounds) return objects that print and compare as the value-level definition says, with right links (every result its own root with no parent), whatever else is in the store.", "quantifier": "all stores, all well-linked trees in them (operands sharing no object), all rule lists and iteration orders, any number of rounds of expansion", "why_tests_cant": "an in-place edit that reaches a second place shows only for particular sharing and orders of edits; tests sample a few trees", "anchors": ["GPy_ABCD/KernelExpressions/commutative_base.py:SumOrProductKE.__init__", "GPy_ABCD/KernelExpressions/commutative_base.py:SumOrProductKE.simplify", "GPy_ABCD/KernelExpressions/change.py:ChangeKE.__init__", "GPy_ABCD/KernelExpressions/base.py:KernelExpression.new_tree_with_self_replaced", "GPy_ABCD/KernelExpansion/kernelExpressionOperations.py:add", "GPy_ABCD/KernelExpansion/kernelExpressionOperations.py:remove_a_term", "GPy_ABCD/KernelExpansion/grammar.py:expand", "GPy_ABCD/KernelExpansion/grammar.py:standardise_singleton_root"]}
{"id": "C79", "title": "Gradients and covariance matrices of whole kernels", "statement": "For the kernel of any expression, however deep: every gradient that update_gradients_full writes for a base kernel's parameter is the derivative of the objective with respect to that parameter, and a change kernel's own gradients are those of its location, slope and width; there is one gradient for every parameter the optimiser sees, under its name, and none for parameters taken away; Kdiag is the diagonal of K; K(X) is positive semidefinite, also at repeated points, so that with noise it can be inverted.", "quantifier": "all kernels built from the base kernels by sums, products and change operators, all parameter values, all inputs, all symmetric dL_dK, all objectives", "why_tests_cant": "calculus over the reals, over all nestings of kernels; numerical gradient checks sample points and hide small or structural errors", "anchors": ["GPy_ABCD/Kernels/changeOperators.py:ChangeKernelBase.update_gradients_full", "GPy_ABCD/Kernels/changeOperators.py:ChangeKernelBase.Kdiag", "GPy_ABCD/Kernels/changeOperators.py:ChangeWindowKernel.update_gradients_full", "GPy_ABCD/KernelExpressions/commutatives.py:ProductKE.to_kernel"]}
{"id": "C80", "title": "Three-part change windows: diagonals and gradients", "statement": "For the change windows with an independent third part and with shifted sides: Kdiag is the diagonal of K; every branch (and the shift) gets the gradient that is the derivative of the objective; the gradients written for location, slope and width are the derivatives with respect to them.", "quantifier": "all branches, all parameter values, all inputs, all symmetric dL_dK", "why_tests_cant": "calculus over the reals; a missing summand shows only for particular branches and points", "anchors": ["GPy_ABCD/Kernels/changeWindowThreePart.py:ChangeWindowIndependentBase.update_gradients_full", "GPy_ABCD/Kernels/changeWindowThreePart.py:ChangeWindowIndependentBase.Kdiag", "GPy_ABCD/Kernels/changeWindowShiftedSides.py:ChangeWindowShiftedSidesBase.update_gradients_full", "GPy_ABCD/Kernels/changeWindowShiftedSides.py:ChangeWindowShiftedSidesBase.Kdiag"]}
{"id": "C81", "title": "Three-part change windows recover from nan", "statement": "Whatever sequence of numbers and nan the optimiser writes to location, slope and width of a three-part change window, the sigmoids inside have the latest numbers written, the third one at location + width; the window with shifted sides hands on what was written last.", "quantifier": "all sequences of writes, all values", "why_tests_cant": "unbounded sequences with nan in any of three parameters at any time", "anchors": ["GPy_ABCD/Kernels/changeWindowThreePart.py:ChangeWindowIndependentBase.parameters_changed", "GPy_ABCD/Kernels/changeWindowShiftedSides.py:ChangeWindowShiftedSidesBase.parameters_changed"]}
{"id": "C82", "title": "An expansion makes every move of every rule at every node, and no others", "statement": "Expanding a simplified expression with a list of the production rules returns forms of exactly those expressions in which one sub-expression has been changed by one move of one of the rules (add, multiply, exchange or remove a base kernel, put in a change point or window, raise a curve, ...). A form has no base kernels of its own and represents the same covariances.", "quantifier": "all simplified expressions, all lists of rules, all sub-expressions at any depth, all orders of the sets of bases", "why_tests_cant": "expressions are unbounded and every rule is applied at every node; what comes back has been simplified and put in order, so tests compare names of a few results", "anchors": ["GPy_ABCD/KernelExpansion/grammar.py:expand", "GPy_ABCD/KernelExpansion/grammar.py:expand_node", "GPy_ABCD/KernelExpansion/grammar.py:production_rules", "GPy_ABCD/KernelExpressions/commutative_base.py:SumOrProductKE.traverse", "GPy_ABCD/KernelExpressions/change.py:ChangeKE.traverse"]}
{"id": "C83", "title": "The linear kernel's gradients are derivatives, by variances and by inputs, in any number of dimensions", "statement": "For the plain linear kernel with one variance or one per input dimension: K and Kdiag are sum_k v_k x_k y_k; update_gradients_full and update_gradients_diag give the derivatives of the loss by each variance, gradients_X and gradients_X_diag those by each input, gradients_XX and gradients_XX_diag the second derivatives.", "quantifier": "all numbers of points and dimensions, all inputs, all variances, all dL_dK (also asymmetric), with and without X2", "why_tests_cant": "calculus over the reals in every dimension; finite differences at sample points only approximate", "anchors": ["GPy_ABCD/Kernels/linearKernel.py:Linear.K", "GPy_ABCD/Kernels/linearKernel.py:Linear.update_gradients_full", "GPy_ABCD/Kernels/linearKernel.py:Linear.update_gradients_diag", "GPy_ABCD/Kernels/linearKernel.py:Linear.gradients_X", "GPy_ABCD/Kernels/linearKernel.py:Linear.gradients_XX"]}
{"id": "C84", "title": "The kernel of an expression has the expression's covariances", "statement": "The GPy kernel that to_kernel makes can be given, by values its optimiser allows for its linked parameters, exactly the covariance functions that the expression stands for (sums, products and changes of those of its base kernels), although products link one variance only; so expressions that are equal or that simplification identifies can be fitted to the same covariances.", "quantifier": "all expressions without sigmoids and empty nodes, all admissible values, any number of different inputs", "why_tests_cant": "equality of two infinite families of functions; tests compare matrices at sample values", "anchors": ["GPy_ABCD/KernelExpressions/base.py:KernelExpression.to_kernel", "GPy_ABCD/KernelExpressions/commutatives.py:ProductKE.to_kernel", "GPy_ABCD/KernelExpressions/change.py:ChangeKE.to_kernel", "GPy_ABCD/Kernels/changeOperators.py:ChangeKernelBase.K"]}
{"id": "C85", "title": "Cross-covariances and predictions", "statement": "K(X, X2) is the block that belongs to X and X2 in the covariance matrix of all points together, whatever points occur in both; the order of points does not matter and K(X2, X) is the transpose. Hence predicted covariances are those of a random vector (no negative variances), and no observation makes a prediction less certain.", "quantifier": "all kernels, all inputs of any number (repeated ones too), all parameter values, any positive noise", "why_tests_cant": "statements on all matrices of all sizes; numerical tests cannot tell a small negative variance from rounding", "anchors": ["GPy_ABCD/Kernels/changeOperators.py:ChangeKernelBase.K", "GPy_ABCD/Kernels/linearOffsetKernel.py:LinearWithOffset.K", "GPy_ABCD/Kernels/periodicKernel.py:PureStdPeriodicKernel.K", "GPy_ABCD/Models/model.py:GPModel.predict"]}
{"id": "C86", "title": "The number of parameters in scores", "statement": "The number of parameters a score counts for a model is that of its expression's parts: all shape parameters, one variance per base kernel of a sum and one per product with base kernels, the change operators' own ones and the noise. Equal expressions have equally many, and simplification never adds any, so that at the same likelihood it never worsens BIC or AIC.", "quantifier": "all expressions without sigmoids, both flags", "why_tests_cant": "expressions are unbounded and simplification has many cases", "anchors": ["GPy_ABCD/Models/model.py:GPModel._k", "GPy_ABCD/KernelExpressions/commutatives.py:ProductKE.to_kernel", "GPy_ABCD/KernelExpressions/commutative_base.py:SumOrProductKE.simplify", "GPy_ABCD/Util/modelUtil.py:BIC"]}
{"id": "C87", "title": "The components told add up to the covariance of the fit", "statement": "Interpreting a fitted model splits its kernel: at any inputs, the matrix K(X) of the fitted kernel is the sum of the matrices of the components that are told, one per term of the sum-of-products form, each with the matrix of that term, and each a covariance matrix itself.", "quantifier": "all stable expressions, all admissible fitted values, all inputs of any number (repeated ones too)", "why_tests_cant": "it relates four recursive transformations (to_kernel, reading parameters back, multiplying out, K) on unbounded trees with real parameters", "anchors": ["GPy_ABCD/KernelExpressions/base.py:KernelExpression.sum_of_prods_form", "GPy_ABCD/KernelExpressions/base.py:KernelExpression.get_interpretation", "GPy_ABCD/Models/model.py:GPModel.interpret", "GPy_ABCD/Kernels/changeOperators.py:ChangeKernelBase.K"]}
{"id": "C88", "title": "What a search returns can be fitted and interpreted", "statement": "Starting from built-in start kernels with any built-in rules, every expression a search hands to a fit has a GPy kernel, so that a search fails only if GPy's optimiser does; and interpret() of every returned model tells its components with their variances.", "quantifier": "all built-in start groups, all rule lists, iteration orders, data, fits and scores, any number of rounds, all beams", "why_tests_cant": "it goes through expansion, simplification, to_kernel, reading parameters back, the sum-of-products form and the text, for trees that no finite list of tests covers", "anchors": ["GPy_ABCD/Models/modelSearch.py:explore_model_space", "GPy_ABCD/Models/model.py:GPModel.fit", "GPy_ABCD/Models/model.py:GPModel.interpret", "GPy_ABCD/KernelExpressions/commutative_base.py:SumOrProductKE.match_up_fit_parameters", "GPy_ABCD/KernelExpansion/grammar.py:expand"]}
{"id": "C89", "title": "How much a search tests", "statement": "Everything that expanding an expanded model gives has been tested. With beams that leave nothing unexpanded, the expressions tested in n rounds are exactly, up to equality, those that at most n expansions of start kernels reach; and if a search ends with nothing left to expand, it has tested everything reachable at all.", "quantifier": "all start expressions, rule lists, iteration orders of sets, data, fits and scores, any number of rounds", "why_tests_cant": "it quantifies over all derivations of the grammar and all searches", "anchors": ["GPy_ABCD/Models/modelSearch.py:model_search_rounds", "GPy_ABCD/Models/modelSearch.py:explore_model_space", "GPy_ABCD/KernelExpansion/grammar.py:expand"]}
{"id": "C90", "title": "Searches that never multiply can always be interpreted", "statement": "A search with rules that do not multiply, started from base kernels and sums with at most one change point each, only reaches sums of base kernels and at most one change operator, each with base kernels of its own, which simplification leaves alone; without rules that make change windows, interpret() of every returned model succeeds and tells components that add up to its kernel.", "quantifier": "all such rule lists and start kernels, iteration orders, data, fits and scores, any number of rounds, all beams", "why_tests_cant": "the claim is an invariant of unboundedly many expansions, combined with the behaviour of four transformations on every tree they reach", "anchors": ["GPy_ABCD/KernelExpansion/grammar.py:expand", "GPy_ABCD/KernelExpansion/grammar.py:plus_base", "GPy_ABCD/KernelExpansion/grammar.py:change_point_linear", "GPy_ABCD/KernelExpansion/grammar.py:remove_some_term", "GPy_ABCD/Models/model.py:GPModel.interpret", "GPy_ABCD/Models/modelSearch.py:explore_model_space"]}
{"id": "C91", "title": "Searches that only grow expressions keep them simplified", "statement": "A search with rules that only add to expressions (plus_base, times_base, times_shifted_base, the change operator rules, and try_higher_curves where SE is not used), started from simplified expressions, only reaches expressions that simplification leaves alone and in which sums and products alternate; so without window rules interpret() of a returned model succeeds exactly if every sum and product in its expression has base terms of its own, and otherwise raises an AssertionError.", "quantifier": "all such rule lists and start kernels, iteration orders, data, fits and scores, any number of rounds, all beams", "why_tests_cant": "the claim is an invariant of unboundedly many expansions over trees of any depth, and simplification is not idempotent in general", "anchors": ["GPy_ABCD/KernelExpansion/grammar.py:expand", "GPy_ABCD/KernelExpansion/grammar.py:times_base", "GPy_ABCD/KernelExpansion/grammar.py:change_window_linear", "GPy_ABCD/KernelExpansion/grammar.py:replace_with_singleton", "GPy_ABCD/KernelExpressions/commutative_base.py:SumOrProductKE.simplify", "GPy_ABCD/Models/model.py:GPModel.interpret"]}
{"id": "C92", "title": "Expressions written by users", "statement": "Writing an expression as nested constructor calls and passing it to a fit or a search gives an expression that simplification leaves alone, in which sums and products alternate, which prints as an expression that evaluates back to it, has only base kernels and exactly the change operators that were written, and can express exactly the covariances that were written; fit_kex then fits and scores it; without windows it can be interpreted exactly if every sum and product in it has base kernels of its own.", "quantifier": "all nestings of constructor calls, both settings of the flags, all fitting outcomes", "why_tests_cant": "it is about every tree a user may write; constructors simplify in part and _initialise() the rest, and the composition is right although neither alone is", "anchors": ["GPy_ABCD/KernelExpressions/commutative_base.py:SumOrProductKE.__init__", "GPy_ABCD/KernelExpressions/change.py:ChangeKE.__init__", "GPy_ABCD/KernelExpressions/base.py:KernelExpression._initialise", "GPy_ABCD/Util/modelUtil.py:fit_kex", "GPy_ABCD/KernelExpansion/grammar.py:make_simple_kexs"]}
{"id": "C93", "title": "Preparing start kernels uses the given objects", "statement": "Given as start kernels, expression objects of the caller are used themselves: make_simple_kexs returns the same objects, well linked and simplified in place, and new objects for names of base kernels; no other object changes. Doing it again gives the same objects, with the same values if they were written with constructors. An unknown name raises a ValueError, after the expressions before it have been changed. Callers who expect their expressions to stay as they are find another expression; terms of other expressions cannot be used.", "quantifier": "all stores, all lists of separate expressions (of any size, with any root links) and names, both settings of the flags", "why_tests_cant": "it is about which objects are changed, for every store and every tree; tests compare values of a few", "anchors": ["GPy_ABCD/KernelExpansion/grammar.py:pseudo_to_real_kex", "GPy_ABCD/KernelExpansion/grammar.py:make_simple_kexs", "GPy_ABCD/KernelExpressions/base.py:KernelExpression._initialise", "GPy_ABCD/Models/modelSearch.py:explore_model_space"]}
{"id": "C94", "title": "Shared parameter dictionaries do not spoil components", "statement": "sum_of_prods_form() deletes variances from parameter dictionaries, multiplies variances and shortens lists in place, while components share dictionaries (those of a change operator and of the product they come from). Still the parameters of every component are those computed as if every dictionary were copied on every use; writing to the variance or to a list of parameters of one component changes no other, and nothing that does not belong to the fitted expression changes.", "quantifier": "all fitted expressions held by distinct objects, which those made by match_up_fit_parameters are, in all stores", "why_tests_cant": "aliasing bugs appear only in particular combinations of nesting and order of evaluation; tests compare a few results", "anchors": ["GPy_ABCD/KernelExpressions/commutatives.py:ProductKE.new_bases_with_parameters", "GPy_ABCD/KernelExpressions/commutatives.py:ProductKE.multiply_pure_prods_with_params", "GPy_ABCD/KernelExpressions/commutatives.py:SumKE.sum_of_prods_form", "GPy_ABCD/KernelExpressions/change.py:ChangeKE.sum_of_prods_form", "GPy_ABCD/KernelExpressions/change.py:ChangeKE.add_sum_of_prods_terms"]}
{"id": "C95", "title": "reduce calls its function on what traverse lists", "statement": "reduce(func, acc) calls func once for each of the nodes that traverse() returns, in that order, passing the accumulator on, string branches of change operators included; no call sees what earlier calls did to base terms except through the accumulator. What func does to the base terms of the nodes of the tree stays and nothing else in the tree changes; what it does to the nodes made up for string branches is lost; a func that only reads leaves the tree as it was.", "quantifier": "all trees, functions, accumulators", "why_tests_cant": "two independently written recursions over trees of any shape have to agree; the test compares one tree", "anchors": ["GPy_ABCD/KernelExpressions/commutative_base.py:SumOrProductKE.reduce", "GPy_ABCD/KernelExpressions/change.py:ChangeKE.reduce", "GPy_ABCD/KernelExpressions/commutative_base.py:SumOrProductKE.traverse", "GPy_ABCD/KernelExpressions/change.py:ChangeKE.traverse"]}
{"id": "C96", "title": "Predictions are consistent", "statement": "The dictionary that predict returns is consistent: no variance is negative, the variances are the diagonal of the matrix that full_cov returns, and low_quantile and high_quantile are the asked quantiles of the normal distribution with the returned mean and variance, in the asked order, with the mean strictly between quantiles asked on both sides of 50. Fewer than two quantiles raise an IndexError, and those after the second are ignored.", "quantifier": "all fitted kernels, data of any size, new inputs, positive noise, quantiles between 0 and 100, options full_cov and include_likelihood", "why_tests_cant": "two GPy calls with different options have to describe the same distribution; numerical tests at some inputs with the default options do not show that they do, and with include_likelihood = False they do not", "anchors": ["GPy_ABCD/Models/model.py:GPModel.predict"]}
{"id": "C97", "title": "Benchmark tables are complete and their ratios are right", "statement": "compare_implementations returns one line for every function, from the fastest to the slowest, with its mean times and first three times; 'best' ratios are to the first line, 'next' ratios to the line before, at least 1, and they multiply up to the 'best' ratio. A function whose runs after the first took no measurable time has no line, without a warning, and a ZeroDivisionError is raised if it is a fastest one. merge_bench_tables of several tables is the table that comparing all their functions at once would give.", "quantifier": "any number of functions, any times (for merge: positive, with different means)", "why_tests_cant": "the ratios come from assignments inside a filtered comprehension, whose truth tests silently drop lines; measured times differ from run to run, so a test can not cover ties, zeros or orders", "anchors": ["GPy_ABCD/Util/benchmarking.py:compare_implementations", "GPy_ABCD/Util/benchmarking.py:merge_bench_tables"]}
{"id": "C98", "title": "Every compiled version asked for is benchmarked under its own name", "statement": "numba_comparisons times every version its arguments ask for exactly once: no two versions get the same name, with any prefix, so none overwrites another in the dictionary, and all of them are in the table.", "quantifier": "all combinations of arguments, any number of extra signatures, any prefix", "why_tests_cant": "names are built from numbers and words in four loops; that no two ever coincide is a statement about all numbers of signatures", "anchors": ["GPy_ABCD/Util/benchmarking.py:numba_comparisons"]}
{"id": "C99", "title": "Printed numbers are right to half a hundredth", "statement": "The numbers in a model description are printed with two places behind the point, and the printed decimal is within half a hundredth of the parameter; printing keeps the order of numbers (so the ends of intervals are not exchanged), and numbers printed alike are at most a hundredth apart. A parameter below half a hundredth is printed as 0.00 or -0.00.", "quantifier": "all rational numbers", "why_tests_cant": "rounding has to be right at every digit and tie, and monotone over pairs of numbers", "anchors": ["GPy_ABCD/KernelExpansion/kernelInterpretation.py:postmodifier_interpretation", "GPy_ABCD/KernelExpansion/kernelInterpretation.py:first_term_interpretation"]}
{"id": "C100", "title": "Descriptions are unambiguous", "statement": "If two fitted models have the same description text, they have equally many components, and the components' sentences tell the same kinds of functions, the same number of periods, roots and intervals, and the same numbers but for what two printed places hide: no two different stories are printed as the same text.", "quantifier": "all pairs of fitted models with tellable components; any way to print numbers with digits, minus and point", "why_tests_cant": "texts are concatenated from optional parts with commas, 'and' and brackets; that no combination reads like another is a statement about all pairs of models", "anchors": ["GPy_ABCD/KernelExpansion/kernelInterpretation.py:first_term_interpretation", "GPy_ABCD/KernelExpansion/kernelInterpretation.py:postmodifier_interpretation", "GPy_ABCD/KernelExpansion/kernelInterpretation.py:base_factors_interpretation"]}
{"id": "C101", "title": "Helpers for hashable elements agree with the general ones", "statement": "unique_h has the elements of unique, each once. eq_elems_h and diff_h should agree with eq_elems and diff: they do on lists without repetitions (for diff_h: with nothing taken away that is not there), and exactly as far as repetitions make no difference, but not always. zip_maps yields every key that all dictionaries have exactly once, with its values in the order of the dictionaries, and no other key; without dictionaries it raises TypeError.", "quantifier": "all lists of hashable elements, all dictionaries, any order of iteration over sets", "why_tests_cant": "agreement of two implementations over all inputs; the order of iteration over sets is not fixed, so a test sees one of many executions", "anchors": ["GPy_ABCD/Util/genericUtil.py:unique_h", "GPy_ABCD/Util/genericUtil.py:eq_elems_h", "GPy_ABCD/Util/genericUtil.py:diff_h", "GPy_ABCD/Util/genericUtil.py:zip_maps"]}
{"id": "C102", "title": "All sampled curves are drawn", "statement": "sampleCurves should draw n_curves curves. The curves drawn are, in order and numbered from 1, samples of the kernel: of one randomised kernel with same_kernel, otherwise each of the kernel randomised anew. The last curve sampled is never drawn: there is always one fewer than asked for. The kernel given is left with random parameters. Without curves and same_kernel an exception is raised.", "quantifier": "all kernels, all sequences of random numbers, any number of curves, both values of same_kernel", "why_tests_cant": "samples are random, so a test has nothing to compare the lines of the plot with, and one line more or fewer among many is not seen in a picture", "anchors": ["GPy_ABCD/Util/kernelUtil.py:sampleCurves"]}
{"id": "C103", "title": "Gradients through the diagonal", "statement": "update_gradients_diag writes, for every linked parameter, the derivative of sum(dL_dKdiag * Kdiag(X)). It does so only for kernels made of white noise, constants, squared exponentials and linear kernels without offset; for every other kernel, in particular every one with a change operator and with the default configuration every one with LIN or PER, it raises NotImplementedError.", "quantifier": "all kernels to any depth, all inputs and dL_dKdiag, all parameter values", "why_tests_cant": "derivatives in parameters at any depth, and which kernels raise, are statements over all kernels", "anchors": ["GPy_ABCD/Kernels/changeOperators.py:ChangeKernelBase.update_gradients_diag", "GPy_ABCD/Kernels/sigmoidalKernels.py:SigmoidalKernelBase.update_gradients_diag", "GPy_ABCD/Kernels/linearKernel.py:Linear.update_gradients_diag"]}
{"id": "C104", "title": "The rules reach the whole language", "statement": "With the rules of production_rules['Default'], ['Original_ABCD'] or ['All'], from any kernel expression repeated expand() reaches an expression equal to any given simplified one over the searched base kernels, in at most 8 rounds for every sum or product in it, 4 for every change operator and 1 for every base kernel. So a model search with beams as wide as the models left tests it by then, whatever the data and start kernels. In terms of covariances: whatever one may write with the searched base kernels (but for products of constants directly in products), an expression with the same covariances is reached. With production_rules['Minimal'] the same holds from a base kernel alone, in at most 5 rounds for every sum or product, 3 for every change operator and 3 for every base kernel; from expressions with change operators, only others with change operators come. Base kernels that the search does not use are never reached.", "quantifier": "all kernel expressions to reach and to start from, all iteration orders, all configurations", "why_tests_cant": "that no expression is out of reach is a statement about all of infinitely many expressions; a test can look for a few, and the searches it would need are far too large to run", "anchors": ["GPy_ABCD/KernelExpansion/grammar.py:expand", "GPy_ABCD/KernelExpansion/grammar.py:production_rules", "GPy_ABCD/Models/modelSearch.py:explore_model_space"]}
{"id": "C105", "title": "Generated data are the functions' values", "statement": "generate_data, generate_changepoint_data and generate_changewindow_data return the inputs and, for each of them, the function's value times Y_weight plus noise. They do so exactly when the value at the first input is a float or all values are whole numbers: otherwise every value is cut off to an integer before weighting, and is wrong by less than Y_weight. Without inputs they raise ValueError.", "quantifier": "all functions on integers and floats, all inputs, weights, change points and windows, all noise", "why_tests_cant": "the type of the result depends on the first value alone, so whether later values survive is a statement about all functions and inputs; the noise hides it from a test", "anchors": ["GPy_ABCD/Util/dataAndPlottingUtil.py:generate_data", "GPy_ABCD/Util/dataAndPlottingUtil.py:generate_changepoint_data", "GPy_ABCD/Util/dataAndPlottingUtil.py:generate_changewindow_data"]}
{"id": "C106", "title": "Change windows with independent sides are told as they are", "statement": "What is read back and told of a change window (its first kernel outside, its second kernel inside a window of the fitted location and width) adds up to the kernel's covariance. It does for the default window. With __USE_INDEPENDENT_SIDES_CHANGEWINDOW_KERNEL it does not: in the middle of the window the kernel also has part of the outside kernel and of the shift, with a constant outside the far sides are told to be the same but are independent, and the fitted shift is not told at all.", "quantifier": "all kernels inside and outside, all locations, widths, slopes and shifts", "why_tests_cant": "covariance functions are compared at all pairs of real inputs and for all parameter values", "anchors": ["GPy_ABCD/Kernels/changeWindowShiftedSides.py:ChangeWindowKernelShiftedSides", "GPy_ABCD/Kernels/baseKernels.py:CW", "GPy_ABCD/KernelExpressions/change.py:ChangeKE.sum_of_prods_form"]}
{"id": "C107", "title": "Searches do not put dominated models first", "statement": "In the list of models a search returns, and hence at its head, no model comes before one that is at least as likely with at most as many parameters, one of the two being better: with BIC (two or more data points), AIC, and AICc (every tested model having at least two fewer parameters than there are data points; with fewer points a dominated model can come first). With LA_LOO models come in the order of the product of their predictive densities at the left-out points: best first if the inference method's LOO returns losses, worst first if it returns logarithms of densities.", "quantifier": "all start kernels, expansions, fitting outcomes, rounds and beams; all log-likelihoods, parameter counts and densities", "why_tests_cant": "A test sees one search; which models win depends on fits that cannot be enumerated, and that a score points the wrong way shows only as disappointing models.", "anchors": ["GPy_ABCD/Util/modelUtil.py:12-15", "GPy_ABCD/Models/modelSearch.py:86-89", "GPy_ABCD/Models/modelSearch.py:122-124"]}
{"id": "C108", "title": "A search over expression objects is the search over their values", "statement": "explore_model_space and model_search_rounds work on expression objects that hold references to one another, are changed in place, copied and pickled. Whatever they return or raise is what the same search over plain expression values returns or raises: the same models with the same expressions in the same order in every list, whether models are fitted in this process or come back from others as copies. Neither the expressions of any two returned models nor any two of the returned tested expressions share an object, so changing one changes no other in its list; with processes no model shares an object with the start kernels that were given, without them every given expression object is the expression of a returned model; the returned tested expressions never share one with those given. Nothing in memory is changed but the given start expressions. If fits succeed no exception comes from the expressions. The lists can be given to model_search_rounds with other parameters, and the same holds of the continued search.", "quantifier": "all start kernels (expressions held as trees of objects, and names), rules, iteration orders, rounds, beams, fit outcomes, numbers of processors, and all contents of memory before the search", "why_tests_cant": "aliasing between objects after many rounds of expansion, copying and sorting depends on the whole history; a test sees values, which agree until an object that is shared is changed", "anchors": ["GPy_ABCD/Models/modelSearch.py:80-106", "GPy_ABCD/Models/modelSearch.py:110-131", "GPy_ABCD/Models/modelSearch.py:39-45", "GPy_ABCD/KernelExpansion/grammar.py:expand", "GPy_ABCD/KernelExpansion/grammar.py:make_simple_kexs"]}
{"id": "C109", "title": "Any scoring function is accepted", "statement": "explore_model_space works with any callable that scores models, as its documentation says: the returned models are all the fitted ones, each with the value of the scoring function, no model before a better one; an error of the scoring function, or of a fit, ends the search with that error, fits coming before scores in each round.", "quantifier": "all searches, all scoring functions: with or without __name__, returning or raising, with comparable values or not", "why_tests_cant": "the library's own scoring functions are named and return numbers; what sorting makes of values that do not compare depends on their positions in the list", "anchors": ["GPy_ABCD/Models/modelSearch.py:85-90", "GPy_ABCD/Models/modelSearch.py:116-127", "GPy_ABCD/Models/model.py:71-74"]}
{"id": "C110", "title": "Predictions are what the fitted model implies", "statement": "What predict returns is the distribution that the fitted model implies for new observations given the data: for data generated by the model, observations and new observations together have the probabilities that result from drawing the new ones from the normal distribution with the returned mean and covariance. So a new observation lies below each returned quantile with exactly the asked probability, and between the default ones 95 times out of 100; with include_likelihood = False the same is true of the function's value.", "quantifier": "all fitted kernels, all inputs, data and new inputs of any number, positive noise, quantiles between 0 and 100; all events about observations and new observations", "why_tests_cant": "it is a statement about probabilities over all data sets, and a test sees a few; whether intervals are right shows in no single prediction", "anchors": ["GPy_ABCD/Models/model.py:GPModel.predict"]}
{"id": "C111", "title": "Predictions with a part of the kernel tell about that part", "statement": "If the fitted kernel is a sum, predict with kern set to one of its parts predicts that part: the means for all parts add up to the mean predicted without kern, and what is returned for a part is the distribution of that part's function at the new inputs given the data, for data generated by the model; the quantiles are right for noisy values of the part. Without kern, or with the fitted kernel itself, the predictions are the ordinary ones.", "quantifier": "all fitted sums of any number of parts, all inputs, data, new inputs, positive noise, options", "why_tests_cant": "it is a statement about probabilities over all data sets; that means add up could be tested on examples, that each part is the right one could not", "anchors": ["GPy_ABCD/Models/model.py:GPModel.predict"]}
{"id": "C112", "title": "The described components are independent parts of the fitted function", "statement": "A fitted model describes its function as a sum of components. This is what the model assumes: independent normal functions, one for each component, with the covariances that the component's own fitted parameters give, exist at any inputs, and the sum of any such functions follows the fitted kernel.", "quantifier": "all stable expressions, all admissible fitted parameters, all finite sets of inputs, any noise", "why_tests_cant": "a statement about the distribution of random functions; it needs the fitted parameters matched to the right terms and the sum of products to be equal to the kernel everywhere", "anchors": ["GPy_ABCD/Models/model.py:GPModel.interpret", "GPy_ABCD/KernelExpressions/base.py:KernelExpression.sum_of_prods_form", "GPy_ABCD/KernelExpansion/kernelOperations.py:fit_ker_to_kex_with_params"]}
{"id": "C113", "title": "Scores and gradients are those of the likelihood of the data", "statement": "The log-likelihood that BIC, AIC and AICc are computed from is the logarithm of the probability density of the observed data under the fitted model: a random function with the fitted kernel's covariances plus white noise. The gradients the optimiser gets for the kernel's parameters are the derivatives of this log-likelihood. If the data come from one kernel, then averaged over data sets no other kernel has a higher log-likelihood, one with other covariances a lower one, and BIC and AIC rank it before every other kernel with at least as many parameters.", "quantifier": "all kernels of any depth, all data, all inputs, all parameters, positive noise", "why_tests_cant": "densities and averages over all data sets; derivatives of determinants and inverses for kernels of any shape", "anchors": ["GPy_ABCD/Models/model.py:GPModel._ll", "GPy_ABCD/Models/model.py:GPModel.fit", "GPy_ABCD/Models/model.py:GPModel.compute_utility", "GPy_ABCD/Util/modelUtil.py:BIC", "GPy_ABCD/Util/modelUtil.py:AIC"]}
{"id": "C114", "title": "A saved kernel can be restored", "statement": "to_dict() of a kernel returns a JSON serialisable dictionary with all that is needed to make the kernel again: some way of reading the dictionary gives back a kernel with the same covariances, whatever the fitted parameters.", "quantifier": "all kernels that expressions are turned into, of any depth, all parameter values", "why_tests_cant": "whether information is lost is a statement about all pairs of kernels; a test that saves and reads one kernel at its default parameters passes", "anchors": ["GPy_ABCD/Kernels/linearKernel.py:Linear.to_dict", "GPy_ABCD/Kernels/linearOffsetKernel.py:LinearWithOffset.to_dict", "GPy_ABCD/Kernels/periodicKernel.py:PureStdPeriodicKernel.to_dict", "GPy_ABCD/Kernels/changeOperators.py:ChangeKernelBase.to_dict"]}
{"id": "C115", "title": "Order, origin and units of the data do not matter", "statement": "Giving the data in another order changes neither scores nor predictions, and predicting at several inputs at once gives what predicting at each gives. Counting the inputs from elsewhere, or measuring inputs or outputs in another unit, changes nothing but the fitted parameters: to every fit of an expression there is one to the changed data with the correspondingly changed predictions and, up to a constant that is the same for all expressions, the same log-likelihood, so that the same expressions are best.", "quantifier": "all expressions without sigmoids, all admissible fitted parameters, all data, all orders, shifts and positive units", "why_tests_cant": "needs for every kernel of any depth that its set of covariances is closed under shifts and changes of unit, which tests on fixed data with local optimisation cannot see", "anchors": ["GPy_ABCD/Models/model.py:GPModel._ll", "GPy_ABCD/Models/model.py:GPModel.predict", "GPy_ABCD/KernelExpressions/base.py:KernelExpression.to_kernel", "GPy_ABCD/Kernels/changeOperators.py:ChangeKernelBase", "GPy_ABCD/config.py"]}
{"id": "C116", "title": "Change operators switch from the one branch to the other", "statement": "Far after a fitted change point covariances are those of its second branch, far before it those of the first, and little is shared across it; a window has its second branch inside and its first outside. How far is far is told by the slope. Predictions far after a change point come from the second branch alone: what was before the change no longer matters.", "quantifier": "all change operators with any branches of any depth, all admissible fitted parameters, all data and new inputs", "why_tests_cant": "limits and bounds over all inputs and kernels; at the distances tests look at, a rest that never fades looks like one that still will", "anchors": ["GPy_ABCD/Kernels/changeOperators.py:ChangeKernelBase.K", "GPy_ABCD/Kernels/changeOperators.py:ChangePointKernel", "GPy_ABCD/Kernels/changeOperators.py:ChangeWindowKernel", "GPy_ABCD/Kernels/sigmoidalKernels.py:_sigmoid_function", "GPy_ABCD/Models/model.py:GPModel.predict"]}
{"id": "C117", "title": "How fast predictions grow beyond the data is told by the expression", "statement": "Beyond the data, predicted means and quantiles grow on either side at most like a power of the inputs that can be read off the expression: the number of linear kernels still multiplied with each other there, where a change point takes one power off the branch it leaves and a window two off its second branch. Prior variances grow exactly like its square. Without linear kernels predictions are bounded everywhere.", "quantifier": "all expressions of any depth, all admissible fitted parameters, all data, all new inputs, any quantiles", "why_tests_cant": "bounds at all inputs however far away, for all data and parameters and all shapes of expressions", "anchors": ["GPy_ABCD/Models/model.py:GPModel.predict", "GPy_ABCD/KernelExpressions/base.py:KernelExpression.to_kernel", "GPy_ABCD/Kernels/changeOperators.py:ChangeKernelBase.K", "GPy_ABCD/Kernels/sigmoidalKernels.py:_sigmoid_function", "GPy_ABCD/Kernels/linearOffsetKernel.py:LinearWithOffset.K"]}
{"id": "C118", "title": "The leave-one-out score tells how well each data point is predicted from the others", "statement": "What LA_LOO averages is, for each data point, the logarithm of the density that the model's own prediction of that point, made from all the other points with the same fitted kernel and noise, gives to the observed value. So of two models of the same data the one with the greater LA_LOO predicts the points better from the others, and a search told to use LA_LOO should list that one first.", "quantifier": "all fitted kernels of any depth with admissible parameters, all data sets of any size with any repeated inputs, all noise variances, all searches", "why_tests_cant": "an identity of matrix inverses for all data and kernels; refitting without each point in a test changes the parameters as well, and compares floats for a few samples", "anchors": ["GPy_ABCD/Util/modelUtil.py:LA_LOO", "GPy_ABCD/Models/model.py:GPModel.predict", "GPy_ABCD/Models/modelSearch.py:explore_model_space"]}
{"id": "C119", "title": "Far from the data predictions are as if there were none", "statement": "Whether a model forgets its data beyond them can be read off its expression, on either side separately: squared exponentials and white noise forget, constants and periodic kernels stay, each linear kernel adds a power of the inputs, a product adds powers up, a sum takes the greatest, a change point takes one power off the branch it leaves and a window two off its second branch. If the outcome is negative, then all that predict returns far out on that side (means, quantiles, variances, covariance matrices) comes as close as wished to what the same kernel and noise predict from no data; in particular means go to zero and not to the level of the data. Of all other expressions there are parameters and data for which it does not.", "quantifier": "all expressions of any depth, all admissible fitted parameters, all data, all new inputs, any quantiles, both sides, with and without full covariance and likelihood", "why_tests_cant": "limits at all inputs however far away, for all data and parameters and all shapes of expressions", "anchors": ["GPy_ABCD/Models/model.py:GPModel.predict", "GPy_ABCD/KernelExpressions/base.py:KernelExpression.to_kernel", "GPy_ABCD/Kernels/changeOperators.py:ChangeKernelBase.K", "GPy_ABCD/Kernels/sigmoidalKernels.py:_sigmoid_function", "GPy_ABCD/Kernels/linearOffsetKernel.py:LinearWithOffset.K"]}
{"id": "C120", "title": "More data never make predictions less certain", "statement": "With the same fitted kernel and noise, predictions from all data are at every new input at least as certain as those from any part of them: predicted variances are no greater and the distance between low and high quantile is no wider. With full_cov the same holds of every combination of values at several inputs, for example of differences between them. And with less noise nothing predicted is less certain.", "quantifier": "all fitted kernels of any depth with admissible parameters, all data sets and all their parts in any order, repeated inputs, all new inputs, any quantiles, with and without full covariance and likelihood", "why_tests_cant": "an inequality between matrix inverses of different sizes for all data and kernels; samples on which variances shrink show nothing of others", "anchors": ["GPy_ABCD/Models/model.py:GPModel.predict", "GPy_ABCD/KernelExpressions/base.py:KernelExpression.to_kernel", "GPy_ABCD/Kernels/changeOperators.py:ChangeKernelBase.K"]}
{"id": "C121", "title": "Growing an expression loses no likelihood", "statement": "If a fit of an expression has some log-likelihood on the data, then fits of the expression that add, both_changes or one_change make of it and another, and of the one that multiply makes of it and a base kernel other than WN, come as close to that log-likelihood as wanted, with the same noise. The same holds in the search, of every expansion that applies one of these to any part of a simplified expression. So the best log-likelihood of a grown expression is never below that of the one it grew from: in the search only the penalty for parameters, or the optimiser, can make it score worse. Multiplying by WN is different: C * WN falls short of C by a fixed amount on some data.", "quantifier": "all operands without sigmoidal kernels, all fitted kernels and noise, all data at distinct inputs (LIN and C not meeting while LIN absorbs constants, LIN as a factor having its offset)", "why_tests_cant": "about suprema over all parameters, which optimisers only approximate from below; a fitted score that is lower shows nothing", "anchors": ["GPy_ABCD/KernelExpansion/kernelExpressionOperations.py:add", "GPy_ABCD/KernelExpansion/kernelExpressionOperations.py:multiply", "GPy_ABCD/KernelExpansion/kernelExpressionOperations.py:both_changes", "GPy_ABCD/KernelExpansion/grammar.py:expand", "GPy_ABCD/Models/model.py:GPModel._ll"]}
{"id": "C122", "title": "Only the least noise bounds the likelihood", "statement": "While the noise (the variance of the likelihood plus the 1e-8 that GPy adds) is at least d, no log-likelihood of n data is above -n/2 log(2 pi d): with 1e-8, never above 8.3 for each data point. Nothing but the noise bounds it: as far as the formulas go, fits with LIN to outputs on a line, with C to outputs that are all the same, with any sum of these with other expressions, and with any expression to outputs that are all zero, have log-likelihoods however high. On such data the search compares how close fits come to the least noise.", "quantifier": "all expressions and fitted kernels, all data; for the cases without bound: at least two data (one for zeros) at distinct inputs, all lines and constants", "why_tests_cant": "about suprema over all parameters and all data; optimisers stop somewhere and show neither that there is a bound nor that there is none", "anchors": ["GPy_ABCD/Models/model.py:GPModel._ll", "GPy_ABCD/Models/model.py:GPModel.fit", "GPy_ABCD/Kernels/linearOffsetKernel.py:LinearWithOffset.K"]}
{"id": "C123", "title": "Long expressions lose", "statement": "By BIC (with two data points or more) and AIC, and with noise of at least d, whatever score is reached: no fit of an expression with more parameters than a number that depends only on that score, the number of data and d is better; so, LIN having its offset, of all simplified expressions only those up to some length can be, which are finitely many, and by each of the two there is a best expression: one whose fits come as close as wanted to the score of any fit of any expression, or below it. A search with the default, original or full rules, wide enough beams and enough rounds (a number that the size of that expression gives) tests it, from any start kernels. Not so by AICc: a model with as many parameters as data points or more is better than every model with at least two fewer than data points, even if its log-likelihood is lower by the number of data points; so, whatever the fit of a sum of one base kernel (LIN, SE or PER) repeated that has at least two parameters fewer than there are data, a longer such sum has a better one.", "quantifier": "all expressions without sigmoidal kernels and all fits of them, all data, all scores; for AICc: all likelihoods and numbers of data and parameters", "why_tests_cant": "about all expressions there are, however long, and all their parameters; any finite run of the search tests only a few", "anchors": ["GPy_ABCD/Util/modelUtil.py:BIC", "GPy_ABCD/Util/modelUtil.py:AIC", "GPy_ABCD/Util/modelUtil.py:AICc", "GPy_ABCD/Models/model.py:GPModel._k", "GPy_ABCD/Models/modelSearch.py:explore_model_space"]}
