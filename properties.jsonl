{"id": "C01", "title": "CandidateSet accepts exactly the duplicate-free sets of valid candidates", "statement": "CandidateSet(cands, num_cand) succeeds iff cands has no repeated element, no negative element and (when num_cand is given) no element >= num_cand; on success it contains exactly the given candidates; otherwise it raises ValueError.", "quantifier": "every finite sequence of integers and every optional num_cand", "why_tests_cant": "Unbounded input space of sequences and bounds.", "anchors": ["abcvoting/misc.py:CandidateSet.__init__"]}
{"id": "C02", "title": "Profiles stay well-formed under every history of operations", "statement": "After any sequence of Profile operations (construct, add_voter, add_voters, __setitem__, convert_to_unit_weights, convert_to_weighted, copy), whether or not some of them raised, every voter's approval set is a duplicate-free subset of {0..num_cand-1}, every weight is positive and num_cand is unchanged.", "quantifier": "every finite sequence of operations with arbitrary arguments", "why_tests_cant": "Histories are unbounded.", "anchors": ["abcvoting/preferences.py:Profile.add_voter", "abcvoting/preferences.py:Profile.__setitem__", "abcvoting/preferences.py:Profile.convert_to_unit_weights", "abcvoting/preferences.py:Profile.convert_to_weighted", "abcvoting/preferences.py:Voter.__init__"]}
{"id": "C03", "title": "convert_to_unit_weights keeps the electorate", "statement": "On integer weights convert_to_unit_weights yields a profile in which all weights are 1 and, for every approval set, the total weight of voters with that set is unchanged; with some non-integer weight it raises TypeError and leaves the profile unchanged.", "quantifier": "every profile (any number of voters and candidates, any approval sets, any positive rational weights)", "why_tests_cant": "Tests run a few fixed profiles; the claim is about all profiles, sizes, weights and tie patterns.", "anchors": ["abcvoting/preferences.py:Profile.convert_to_unit_weights"]}
{"id": "C04", "title": "convert_to_weighted keeps the electorate", "statement": "convert_to_weighted yields pairwise different approval sets and, for every approval set, the total weight of voters with that set is unchanged.", "quantifier": "every profile (any number of voters and candidates, any approval sets, any positive rational weights)", "why_tests_cant": "Tests run a few fixed profiles; the claim is about all profiles, sizes, weights and tie patterns.", "anchors": ["abcvoting/preferences.py:Profile.convert_to_weighted"]}
{"id": "C05", "title": "copy returns an equal, independent profile", "statement": "copy() never fails on a well-formed profile and returns a profile with the same number of candidates and the same voters in the same order with the same approval sets and weights; candidate names are not copied, the copy always has the default names 0,1,... (deviation from what 'deep copy' suggests).", "quantifier": "every profile (any number of voters and candidates, any approval sets, any positive rational weights)", "why_tests_cant": "Tests run a few fixed profiles; the claim is about all profiles, sizes, weights and tie patterns.", "anchors": ["abcvoting/preferences.py:Profile.copy"]}
{"id": "C06", "title": "is_party_list characterises party-list profiles", "statement": "is_party_list() is True iff any two voters have disjoint or equal approval sets.", "quantifier": "every profile (any number of voters and candidates, any approval sets, any positive rational weights)", "why_tests_cant": "Tests run a few fixed profiles; the claim is about all profiles, sizes, weights and tie patterns.", "anchors": ["abcvoting/preferences.py:Profile.is_party_list"]}
{"id": "C07", "title": "sorted_committees is a canonical order", "statement": "sorted_committees returns a permutation of its input committees sorted by their printed form; on pairwise different committees the result does not depend on the order in which they were given (so hash order never leaks into results); printed forms of different committees differ.", "quantifier": "every finite list of committees", "why_tests_cant": "Sampling cannot show independence of every input order.", "anchors": ["abcvoting/misc.py:sorted_committees", "abcvoting/misc.py:str_set_of_candidates"]}
{"id": "C08", "title": "hamming is the symmetric-difference metric", "statement": "hamming(a,b) is the size of the symmetric difference; it is 0 iff the sets are equal, symmetric, and satisfies the triangle inequality.", "quantifier": "all finite sets of candidates", "why_tests_cant": "Unbounded set sizes.", "anchors": ["abcvoting/misc.py:hamming"]}
{"id": "C09", "title": "dominate is Pareto dominance, a strict partial order", "statement": "dominate(profile,A,B) is True iff every voter approves at least as many members of A as of B and some voter strictly more; it is irreflexive, asymmetric and transitive.", "quantifier": "every profile (any number of voters and candidates, any approval sets, any positive rational weights) and all committees", "why_tests_cant": "Tests run a few fixed profiles; the claim is about all profiles, sizes, weights and tie patterns.", "anchors": ["abcvoting/misc.py:dominate"]}
{"id": "C10", "title": "powerset enumerates each bounded-size subset exactly once", "statement": "powerset(s, max_size) yields every subset of s with at most max_size elements exactly once, in order of size.", "quantifier": "every duplicate-free iterable and every optional max_size", "why_tests_cant": "Unbounded sizes.", "anchors": ["abcvoting/misc.py:powerset"]}
{"id": "C11", "title": "binom is the binomial coefficient", "statement": "binom(n,k) equals n choose k, and 0 when n<0, k<0 or k>n.", "quantifier": "all integers n, k", "why_tests_cant": "Infinitely many arguments.", "anchors": ["abcvoting/misc.py:binom"]}
{"id": "C12", "title": "Committee list comparison", "statement": "compare_list_of_committees is True iff both lists contain the same committees as sets; verify_expected_committees_equals_actual_committees raises exactly when the actual list differs from the expected one (or, when resolute, is not exactly one expected committee); compute(result=...) therefore returns iff the result matches.", "quantifier": "all pairs of lists of committees", "why_tests_cant": "Unbounded lists.", "anchors": ["abcvoting/misc.py:compare_list_of_committees", "abcvoting/misc.py:verify_expected_committees_equals_actual_committees", "abcvoting/abcrules.py:compute"]}
{"id": "C13", "title": "thiele_score is the Thiele score", "statement": "thiele_score(id, profile, W) = sum over voters of weight * (f(1)+...+f(|approved ∩ W|)) for the marginal function f of that id.", "quantifier": "every profile (any number of voters and candidates, any approval sets, any positive rational weights), all committees, all score functions", "why_tests_cant": "Tests run a few fixed profiles; the claim is about all profiles, sizes, weights and tie patterns.", "anchors": ["abcvoting/scores.py:thiele_score", "abcvoting/scores.py:get_marginal_scorefct"]}
{"id": "C14", "title": "Marginal scores for adding are exact", "statement": "marginal_thiele_scores_add gives for every candidate outside the committee exactly thiele_score(W+c)-thiele_score(W) and -1 for members.", "quantifier": "every profile (any number of voters and candidates, any approval sets, any positive rational weights), all committees, all score functions", "why_tests_cant": "Tests run a few fixed profiles; the claim is about all profiles, sizes, weights and tie patterns.", "anchors": ["abcvoting/scores.py:marginal_thiele_scores_add"]}
{"id": "C15", "title": "Marginal scores for removing are exact", "statement": "marginal_thiele_scores_remove gives for every member exactly thiele_score(W)-thiele_score(W-c), and for every non-member a value strictly larger than that of every member.", "quantifier": "every profile (any number of voters and candidates, any approval sets, any positive rational weights), all committees, all score functions", "why_tests_cant": "Tests run a few fixed profiles; the claim is about all profiles, sizes, weights and tie patterns.", "anchors": ["abcvoting/scores.py:marginal_thiele_scores_remove"]}
{"id": "C16", "title": "Score functions are non-negative and non-increasing", "statement": "pav, slav, cc, av and geom with base >= 1 are non-negative and non-increasing from i=1 on; cc coincides with atleast1; cumulative_score sums them; the AV score of W is the sum of the weights of its approvals.", "quantifier": "all positive integers i and all rational bases >= 1", "why_tests_cant": "Infinitely many i and bases.", "anchors": ["abcvoting/scores.py:pav_score_fct", "abcvoting/scores.py:slav_score_fct", "abcvoting/scores.py:cc_score_fct", "abcvoting/scores.py:geometric_marginal_score_fct", "abcvoting/scores.py:at_least_ell_fct", "abcvoting/scores.py:cumulative_score"]}
{"id": "C17", "title": "monroescore is the optimum over balanced assignments", "statement": "monroescore(profile,W) is the maximum, over all assignments of voters to members of W in which every member gets floor(n/k) or ceil(n/k) voters, of the number of voters assigned to a candidate they approve; the matching-based and the flow-based computation both give this value.", "quantifier": "every unit-weight profile and every non-empty committee", "why_tests_cant": "Tests run a few fixed profiles; the claim is about all profiles, sizes, weights and tie patterns.", "anchors": ["abcvoting/scores.py:monroescore", "abcvoting/scores.py:monroescore_matching", "abcvoting/scores.py:monroescore_flowbased"]}
{"id": "C18", "title": "minimaxav_score is the maximal Hamming distance", "statement": "minimaxav_score is an upper bound on all voters' Hamming distances to the committee, attained by some voter (0 for an empty profile); num_voters_with_upper_bounded_hamming_distance counts the voters within the bound.", "quantifier": "every profile (any number of voters and candidates, any approval sets, any positive rational weights) and all committees", "why_tests_cant": "Tests run a few fixed profiles; the claim is about all profiles, sizes, weights and tie patterns.", "anchors": ["abcvoting/scores.py:minimaxav_score", "abcvoting/scores.py:num_voters_with_upper_bounded_hamming_distance"]}
{"id": "C19", "title": "Parameter validation", "statement": "compute(rule_id, ...) raises the validation error exactly when the rule id is unknown, committeesize<1, committeesize>num_cand, the profile has no voters, the algorithm or resolute value is not supported (or no algorithm is installed), max_num_of_committees is <1 or is combined with resolute=True; no computation happens then. The rule ids, their algorithms (fastest first) and resolute values (default first) are those of the documented table. (Finding: seqav and revseqav are accepted although the code means to reject them.)", "quantifier": "all parameter combinations, profiles and rule ids", "why_tests_cant": "Parameter space unbounded.", "anchors": ["abcvoting/abcrules.py:Rule.verify_compute_parameters"]}
{"id": "C20", "title": "AV and SAV return exactly the optimal committees", "statement": "compute_av / compute_sav with resolute=False return exactly the size-k committees with maximal total (satisfaction) approval score, without duplicates. SAV: for weights stored as Fractions (the code divides weights with /, which rounds for int weights: see C96).", "quantifier": "every profile (any number of voters and candidates, any approval sets, any positive rational weights), all committee sizes 1..num_cand", "why_tests_cant": "Tests run a few fixed profiles; the claim is about all profiles, sizes, weights and tie patterns.", "anchors": ["abcvoting/abcrules.py:_separable_rule_algorithm", "abcvoting/abcrules.py:compute_av", "abcvoting/abcrules.py:compute_sav"]}
{"id": "C21", "title": "Brute-force Thiele methods return exactly the optimal committees", "statement": "compute_thiele_method(algorithm='brute-force', resolute=False) for pav, slav, cc, geom returns exactly the size-k committees of maximal Thiele score, each once.", "quantifier": "every profile (any number of voters and candidates, any approval sets, any positive rational weights), all committee sizes", "why_tests_cant": "Tests run a few fixed profiles; the claim is about all profiles, sizes, weights and tie patterns.", "anchors": ["abcvoting/abcrules.py:_thiele_methods_bruteforce", "abcvoting/abcrules.py:compute_thiele_method"]}
{"id": "C22", "title": "Branch-and-bound agrees with brute force", "statement": "For every Thiele rule whose marginal score function is non-negative and non-increasing (pav, slav, cc, av, geom with base >= 1) algorithm='branch-and-bound' returns exactly the optimal committees and the same list as algorithm='brute-force' (resolute=False, any max_num_of_committees); for geom with base < 1 it can fail with IndexError.", "quantifier": "every profile (any number of voters and candidates, any approval sets, any positive rational weights), all committee sizes, all Thiele rules", "why_tests_cant": "Tests run a few fixed profiles; the claim is about all profiles, sizes, weights and tie patterns.", "anchors": ["abcvoting/abcrules.py:_thiele_methods_branchandbound"]}
{"id": "C23", "title": "lex-CC brute force returns exactly the lexicographically optimal committees", "statement": "compute_lexcc(algorithm='brute-force', resolute=False) returns exactly the committees whose vector (at-least-1 score, ..., at-least-k score) is lexicographically maximal.", "quantifier": "every profile (any number of voters and candidates, any approval sets, any positive rational weights), all committee sizes", "why_tests_cant": "Tests run a few fixed profiles; the claim is about all profiles, sizes, weights and tie patterns.", "anchors": ["abcvoting/abcrules.py:_lexcc_bruteforce"]}
{"id": "C24", "title": "Minimax AV brute force returns exactly the minimisers", "statement": "compute_minimaxav(algorithm='brute-force', resolute=False) returns exactly the committees minimising the maximal Hamming distance.", "quantifier": "every profile (any number of voters and candidates, any approval sets, any positive rational weights), all committee sizes", "why_tests_cant": "Tests run a few fixed profiles; the claim is about all profiles, sizes, weights and tie patterns.", "anchors": ["abcvoting/abcrules.py:_minimaxav_bruteforce"]}
{"id": "C25", "title": "lex-MAV brute force returns exactly the lexicographic minimisers", "statement": "compute_lexminimaxav(algorithm='brute-force', resolute=False) returns exactly the committees whose decreasingly sorted distance vector is lexicographically minimal.", "quantifier": "every unit-weight profile, all committee sizes", "why_tests_cant": "Tests run a few fixed profiles; the claim is about all profiles, sizes, weights and tie patterns.", "anchors": ["abcvoting/abcrules.py:_lexminimaxav_bruteforce"]}
{"id": "C26", "title": "Monroe brute force returns exactly the optimal committees", "statement": "compute_monroe(algorithm='brute-force', resolute=False) returns exactly the committees of maximal Monroe score.", "quantifier": "every unit-weight profile, all committee sizes", "why_tests_cant": "Tests run a few fixed profiles; the claim is about all profiles, sizes, weights and tie patterns.", "anchors": ["abcvoting/abcrules.py:_monroe_bruteforce"]}
{"id": "C27", "title": "Sequential Thiele methods: parallel-universe semantics", "statement": "seq-Thiele with resolute=False returns exactly the committees obtainable by k times adding some candidate of maximal marginal score; with resolute=True it adds the smallest-index maximiser each time.", "quantifier": "every profile (any number of voters and candidates, any approval sets, any positive rational weights), all committee sizes, all non-negative score functions", "why_tests_cant": "Tests run a few fixed profiles; the claim is about all profiles, sizes, weights and tie patterns.", "anchors": ["abcvoting/abcrules.py:_seq_thiele_irresolute", "abcvoting/abcrules.py:_seq_thiele_resolute"]}
{"id": "C28", "title": "Reverse sequential Thiele methods: parallel-universe semantics", "statement": "revseq-Thiele with resolute=False and no max_num_of_committees returns a sorted list whose committees are exactly those obtainable from the full set by repeatedly removing a member of minimal marginal loss, for every iteration order of Python sets; each exactly once (and max_num_of_committees respected) if the iteration order of a set depends on its elements only; otherwise a committee can be listed more than once. With resolute=True it removes the largest-index minimiser each time.", "quantifier": "every profile (any number of voters and candidates, any approval sets, any positive rational weights), all committee sizes, all set iteration orders", "why_tests_cant": "Tests run a few fixed profiles; the claim is about all profiles, sizes, weights and tie patterns.", "anchors": ["abcvoting/abcrules.py:_revseq_thiele_irresolute", "abcvoting/abcrules.py:_revseq_thiele_resolute", "abcvoting/scores.py:marginal_thiele_scores_remove"]}
{"id": "C29", "title": "Resolute results are irresolute results; exactly one committee", "statement": "With resolute=True compute returns exactly one committee for every rule id, and it is one of those returned with resolute=False (if supported), whatever algorithms run in the two calls and whatever choices solvers, set iteration and the random generator make.", "quantifier": "every profile, all committee sizes, every rule id known to compute, every algorithm in exact arithmetic (not float-fractions) with exact solvers; weights: unit weights for the rules that require them, supporters of total weight >= 1 for the Phragmen rules and Equal Shares with Phragmen completion, 1/D multiples for lexcc/gurobi, weights stored as Fractions for sav (int weights: C96)", "why_tests_cant": "Tests run a few fixed profiles; the claim is about all profiles, sizes, weights and tie patterns.", "anchors": ["abcvoting/abcrules.py:compute_av", "abcvoting/abcrules.py:compute_thiele_method", "abcvoting/abcrules.py:compute_seq_thiele_method", "abcvoting/abcrules.py:compute_seqphragmen", "abcvoting/abcrules.py:compute_equal_shares"]}
{"id": "C30", "title": "max_num_of_committees", "statement": "With max_num_of_committees=r (resolute=False) compute returns min(r, number of winning committees) different committees, all of them among those returned without the bound. (Finding: minimaxphragmen and leximaxphragmen ignore the bound if fewer than committeesize candidates are approved.)", "quantifier": "every profile, all committee sizes, every rule id known to compute, every algorithm in exact arithmetic (not float-fractions) with exact solvers; weights: unit weights for the rules that require them, supporters of total weight >= 1 for the Phragmen rules and Equal Shares with Phragmen completion, 1/D multiples for lexcc/gurobi, weights stored as Fractions for sav (int weights: C96); all r >= 1", "why_tests_cant": "Tests run a few fixed profiles; the claim is about all profiles, sizes, weights and tie patterns.", "anchors": ["abcvoting/abcrules.py:_separable_rule_algorithm", "abcvoting/abcrules.py:_seq_thiele_irresolute", "abcvoting/abcrules.py:_thiele_methods_bruteforce", "abcvoting/abcrules_gurobi.py:_gurobi_minimaxphragmen", "abcvoting/abcrules_mip.py:_mip_minimaxphragmen"]}
{"id": "C31", "title": "Every rule returns valid committees", "statement": "Whenever the parameters are valid, compute(rule_id) returns the winning committees of the rule: a non-empty sorted list of pairwise different committees, each a duplicate-free set of exactly committeesize candidates of the profile (at most committeesize for Equal Shares without completion). Omitted arguments are equivalent to the documented defaults, and result=... raises unless it matches.", "quantifier": "every profile, all committee sizes, every rule id known to compute, every algorithm in exact arithmetic (not float-fractions) with exact solvers; weights: unit weights for the rules that require them, supporters of total weight >= 1 for the Phragmen rules and Equal Shares with Phragmen completion, 1/D multiples for lexcc/gurobi, weights stored as Fractions for sav (int weights: C96)", "why_tests_cant": "Tests run a few fixed profiles; the claim is about all profiles, sizes, weights and tie patterns.", "anchors": ["abcvoting/abcrules.py:compute"]}
{"id": "C32", "title": "Greedy Monroe districts", "statement": "compute_greedy_monroe picks in each round a remaining candidate with most approvals among unassigned voters (smallest index on ties), removes at most ceil/floor(n/k) of its unassigned supporters; districts are disjoint, contain only supporters, and completing the assignment always uses each remaining voter exactly once (it never pops from an empty list).", "quantifier": "every unit-weight profile, all committee sizes", "why_tests_cant": "Tests run a few fixed profiles; the claim is about all profiles, sizes, weights and tie patterns.", "anchors": ["abcvoting/abcrules.py:_greedy_monroe_algorithm", "abcvoting/abcrules.py:compute_greedy_monroe"]}
{"id": "C33", "title": "seq-Phragmén semantics", "statement": "compute_seqphragmen (exact fractions) adds in every round a candidate outside the committee whose supporters' common new load is minimal; with resolute=False exactly all such runs are reported; total weighted load equals the number of elected approved candidates; no candidate is ever elected twice. With supporters of total weight < 1 the call can fail with ValueError.", "quantifier": "every profile in which every approved candidate's supporters have total weight >= 1 (in particular all weights >= 1), all committee sizes", "why_tests_cant": "Tests run a few fixed profiles; the claim is about all profiles, sizes, weights and tie patterns.", "anchors": ["abcvoting/abcrules.py:_seqphragmen_resolute", "abcvoting/abcrules.py:_seqphragmen_irresolute"]}
{"id": "C34", "title": "seq-Phragmén satisfies PJR", "statement": "Every committee returned by compute_seqphragmen (exact fractions) satisfies proportional justified representation.", "quantifier": "every profile in which every approved candidate's supporters have total weight >= 1 (in particular all weights >= 1), all committee sizes", "why_tests_cant": "A proportionality guarantee over all voter groups of all profiles.", "anchors": ["abcvoting/abcrules.py:_seqphragmen_resolute", "abcvoting/abcrules.py:_seqphragmen_irresolute"]}
{"id": "C35", "title": "Equal Shares computes the exact price", "statement": "The price q computed for a candidate is the unique q with sum over its supporters of min(budget, q*weight) = 1; no q is reported iff the supporters' total budget is < 1.", "quantifier": "all budgets and weights, all candidates", "why_tests_cant": "Tests run a few fixed profiles; the claim is about all profiles, sizes, weights and tie patterns.", "anchors": ["abcvoting/abcrules.py:_equal_shares_algorithm"]}
{"id": "C36", "title": "Equal Shares budget accounting", "statement": "In every run of the Method of Equal Shares budgets stay non-negative and every elected candidate costs exactly 1, so at most committeesize candidates are bought; with completion None it stops exactly when no remaining candidate is affordable or the committee is full.", "quantifier": "every profile (any number of voters and candidates, any approval sets, any positive rational weights), all committee sizes", "why_tests_cant": "Tests run a few fixed profiles; the claim is about all profiles, sizes, weights and tie patterns.", "anchors": ["abcvoting/abcrules.py:_equal_shares_algorithm"]}
{"id": "C37", "title": "Equal Shares satisfies EJR+", "statement": "Every committee returned by compute_equal_shares (exact fractions; completion None, 'seqphragmen' or 'av') satisfies EJR+ and hence EJR. (Finding: completion='increment' may return a committee that violates JR.)", "quantifier": "every profile (any number of voters and candidates, any approval sets, any positive rational weights), all committee sizes", "why_tests_cant": "A proportionality guarantee over all voter groups of all profiles.", "anchors": ["abcvoting/abcrules.py:_equal_shares_algorithm", "abcvoting/abcrules.py:compute_equal_shares"]}
{"id": "C38", "title": "Completions fill the committee", "statement": "compute_equal_shares (exact fractions) with completion None, 'seqphragmen' or 'av' returns exactly the committees of its definition: a run of buying the cheapest affordable candidate until none is affordable, then completed by seq-Phragmen started from the remaining budgets, or by approval scores; with a completion all committees have exactly committeesize members and contain the Equal Shares committee; the 'Critical bug' RuntimeErrors of the AV completion are unreachable.", "quantifier": "every profile (any number of voters and candidates, any approval sets, any positive rational weights), all committee sizes (for the completion 'seqphragmen': approved candidates with supporters of total weight >= 1)", "why_tests_cant": "Tests run a few fixed profiles; the claim is about all profiles, sizes, weights and tie patterns.", "anchors": ["abcvoting/abcrules.py:_equal_shares_algorithm"]}
{"id": "C39", "title": "Increment completion always succeeds", "statement": "compute_equal_shares(completion='increment') returns exactly one committee of exactly committeesize: the outcome for the smallest virtual committee size for which enough candidates are bought, or an AV winner if fewer than committeesize candidates are approved; its 'Critical bug' RuntimeError is unreachable. With supporters of total weight < 1 the RuntimeError is reachable.", "quantifier": "every profile in which every approved candidate's supporters have total weight >= 1 (in particular all weights >= 1), all committee sizes", "why_tests_cant": "Reachability of an internal error over all inputs.", "anchors": ["abcvoting/abcrules.py:_equal_shares_algorithm_with_increment_completion"]}
{"id": "C40", "title": "Phragmén-Eneström semantics", "statement": "Budgets stay within [0, weight]; each round elects a remaining candidate of maximal remaining support and charges its supporters proportionally exactly the price (or all they have if they cannot afford it); resolute=False reports exactly all such runs.", "quantifier": "every profile (any number of voters and candidates, any approval sets, any positive rational weights), all committee sizes", "why_tests_cant": "Tests run a few fixed profiles; the claim is about all profiles, sizes, weights and tie patterns.", "anchors": ["abcvoting/abcrules.py:_phragmen_enestroem_algorithm"]}
{"id": "C41", "title": "Consensus rule accounting", "statement": "In the consensus rule each round elects a remaining candidate with maximal support by voters of positive budget; after each round with a supporter the budgets sum to what they summed to before the round; resolute=False reports exactly all such runs.", "quantifier": "every profile (any number of voters and candidates, any approval sets, any positive rational weights), all committee sizes", "why_tests_cant": "Tests run a few fixed profiles; the claim is about all profiles, sizes, weights and tie patterns.", "anchors": ["abcvoting/abcrules.py:_consensus_rule_algorithm"]}
{"id": "C42", "title": "Trivial rule", "statement": "compute_trivial_rule(resolute=False) returns all size-k committees exactly once; with max_num_of_committees=r, the first min(r, C(m,k)) of them; resolute returns {0..k-1}.", "quantifier": "every profile (any number of voters and candidates, any approval sets, any positive rational weights), all committee sizes", "why_tests_cant": "Tests run a few fixed profiles; the claim is about all profiles, sizes, weights and tie patterns.", "anchors": ["abcvoting/abcrules.py:compute_trivial_rule"]}
{"id": "C43", "title": "Random serial dictator is valid for every random outcome", "statement": "For every shuffle and every random sample compute_rsd returns one committee of exactly committeesize candidates containing everything the dictators choose one after the other (all their approved candidates while they fit, then those with the smallest indices); if the first dictator approves at most committeesize candidates her approval set is contained in it, otherwise the dictators' choice consists of approved candidates of the first one only; profiles with other weights are rejected.", "quantifier": "every unit-weight profile, all committee sizes, all outcomes of the random generator", "why_tests_cant": "Random schedules cannot be enumerated by tests.", "anchors": ["abcvoting/abcrules.py:compute_rsd"]}
{"id": "C44", "title": "E Pluribus Hugo computes its elimination process", "statement": "compute_eph (exact fractions) terminates and, for every iteration order of the candidate set, returns exactly the committees of the elimination process: repeatedly eliminate, among the candidates at or below the second smallest single divisible vote score, those with fewest approvals; when at most committeesize candidates would remain, every choice of them that leaves exactly committeesize candidates is a winning committee. With num_cand = 1 it raises IndexError.", "quantifier": "every profile (any number of voters and candidates, any approval sets, any positive rational weights) with at least two candidates, all committee sizes, all set iteration orders", "why_tests_cant": "Termination over all inputs.", "anchors": ["abcvoting/abcrules.py:_eph_algorithm"]}
{"id": "C45", "title": "PAV satisfies EJR+", "statement": "Every committee returned by compute_pav (brute-force or branch-and-bound) satisfies EJR+ and hence EJR, PJR and JR.", "quantifier": "every profile (any number of voters and candidates, any approval sets, any positive rational weights), all committee sizes", "why_tests_cant": "A proportionality guarantee over all voter groups of all profiles.", "anchors": ["abcvoting/abcrules.py:compute_pav"]}
{"id": "C46", "title": "PAV, SLAV, geometric and AV winners are Pareto optimal", "statement": "No committee of the same size dominates a committee returned by compute_pav, compute_slav, compute_thiele_method(geom) or compute_av.", "quantifier": "every profile (any number of voters and candidates, any approval sets, any positive rational weights), all committee sizes", "why_tests_cant": "Tests run a few fixed profiles; the claim is about all profiles, sizes, weights and tie patterns.", "anchors": ["abcvoting/abcrules.py:compute_thiele_method", "abcvoting/abcrules.py:compute_av", "abcvoting/misc.py:dominate"]}
{"id": "C47", "title": "CC and seq-CC satisfy JR", "statement": "Every committee returned by compute_cc (brute force / branch-and-bound) or compute_seqcc satisfies justified representation.", "quantifier": "every profile (any number of voters and candidates, any approval sets, any positive rational weights), all committee sizes", "why_tests_cant": "A guarantee over all voter groups of all profiles.", "anchors": ["abcvoting/abcrules.py:compute_cc", "abcvoting/abcrules.py:compute_seqcc"]}
{"id": "C48", "title": "Committee monotonicity of the sequential rules", "statement": "For resolute seq-Thiele, revseq-Thiele and seq-Phragmén the committee for size k is contained in the committee for size k+1.", "quantifier": "every profile (any number of voters and candidates, any approval sets, any positive rational weights), all committee sizes", "why_tests_cant": "Tests run a few fixed profiles; the claim is about all profiles, sizes, weights and tie patterns.", "anchors": ["abcvoting/abcrules.py:_seq_thiele_resolute", "abcvoting/abcrules.py:_revseq_thiele_resolute", "abcvoting/abcrules.py:_seqphragmen_resolute"]}
{"id": "C49", "title": "Anonymity", "statement": "Reordering the voters of a profile does not change the list returned by Thiele methods (brute force, branch and bound), AV, SAV, sequential and reverse sequential Thiele methods, lex-CC, Minimax AV, lex-MAV and Monroe (brute force), the trivial rule, seq-Phragmen, Phragmen-Enestroem, the consensus rule, Equal Shares (all completions) and E Pluribus Hugo (exact fractions), for resolute and irresolute calls and any max_num_of_committees; Greedy Monroe is not anonymous (explicit counterexample).", "quantifier": "every profile (any number of voters and candidates, any approval sets, any positive rational weights), all permutations of voters; SAV: weights stored as Fractions (int weights: C96)", "why_tests_cant": "Tests run a few fixed profiles; the claim is about all profiles, sizes, weights and tie patterns.", "anchors": ["abcvoting/abcrules.py:compute"]}
{"id": "C50", "title": "Weights are copies", "statement": "For the weight-aware rules the returned list depends only on the number of candidates and, for every approval set, the total weight of the voters with that approval set; in particular replacing a profile by its convert_to_unit_weights (integer weights) or convert_to_weighted version changes no result.", "quantifier": "every pair of profiles with the same electorate, all arguments; SAV: weights stored as Fractions (int weights: C96)", "why_tests_cant": "Tests run a few fixed profiles; the claim is about all profiles, sizes, weights and tie patterns.", "anchors": ["abcvoting/preferences.py:Profile.convert_to_unit_weights", "abcvoting/preferences.py:Profile.convert_to_weighted", "abcvoting/abcrules.py:compute"]}
{"id": "C51", "title": "check_JR decides JR", "statement": "check_JR returns True iff no group of voters of total weight >= quota jointly approves a candidate while no member approves a committee member.", "quantifier": "every profile (any number of voters and candidates, any approval sets, any positive rational weights), all committees, all positive quotas", "why_tests_cant": "Tests run a few fixed profiles; the claim is about all profiles, sizes, weights and tie patterns.", "anchors": ["abcvoting/properties.py:check_JR"]}
{"id": "C52", "title": "Pareto check (brute force) is correct", "statement": "check_pareto_optimality(algorithm='brute-force') returns True iff no committee of the same size dominates the given one.", "quantifier": "every profile (any number of voters and candidates, any approval sets, any positive rational weights), all committees", "why_tests_cant": "Tests run a few fixed profiles; the claim is about all profiles, sizes, weights and tie patterns.", "anchors": ["abcvoting/properties.py:_check_pareto_optimality_brute_force"]}
{"id": "C53", "title": "check_EJR (brute force) decides EJR", "statement": "On unit-weight profiles check_EJR(algorithm='brute-force') returns True iff for every l no l-cohesive group leaves all members with fewer than l approved committee members; on weighted profiles it can wrongly return True.", "quantifier": "every profile with unit weights, all committees, all positive quotas", "why_tests_cant": "Tests run a few fixed profiles; the claim is about all profiles, sizes, weights and tie patterns.", "anchors": ["abcvoting/properties.py:_check_EJR_brute_force"]}
{"id": "C54", "title": "check_PJR (brute force) decides PJR", "statement": "On unit-weight profiles check_PJR(algorithm='brute-force') returns True iff for every l every l-cohesive group jointly approves at least l committee members; on weighted profiles it can wrongly return True.", "quantifier": "every profile with unit weights, all committees, all positive quotas", "why_tests_cant": "Tests run a few fixed profiles; the claim is about all profiles, sizes, weights and tie patterns.", "anchors": ["abcvoting/properties.py:_check_PJR_brute_force"]}
{"id": "C55", "title": "check_EJR_plus decides EJR+", "statement": "check_EJR_plus returns True iff there are no l, unelected candidate c and group of supporters of c of weight >= l*quota all with fewer than l approved committee members.", "quantifier": "every profile (any number of voters and candidates, any approval sets, any positive rational weights), all committees, all positive quotas such that no voter's number of approved committee members times the quota exceeds the total weight (always true for the default quota; otherwise KeyError is possible)", "why_tests_cant": "Tests run a few fixed profiles; the claim is about all profiles, sizes, weights and tie patterns.", "anchors": ["abcvoting/properties.py:_check_EJR_plus"]}
{"id": "C56", "title": "check_FJR (brute force) decides FJR", "statement": "check_FJR(algorithm='brute-force') returns True iff there are no candidate set T, beta and group of weight >= |T|*quota whose members each approve >= beta of T and < beta of the committee.", "quantifier": "every profile (any number of voters and candidates, any approval sets, any positive rational weights), all committees, all positive quotas", "why_tests_cant": "Tests run a few fixed profiles; the claim is about all profiles, sizes, weights and tie patterns.", "anchors": ["abcvoting/properties.py:_check_FJR_brute_force"]}
{"id": "C57", "title": "check_core (brute force) decides the core", "statement": "check_core(algorithm='brute-force') returns True iff no non-empty group of weight >= |T|*quota prefers some candidate set T to the committee.", "quantifier": "every profile (any number of voters and candidates, any approval sets, any positive rational weights), all committees, all positive quotas", "why_tests_cant": "Tests run a few fixed profiles; the claim is about all profiles, sizes, weights and tie patterns.", "anchors": ["abcvoting/properties.py:_check_core_brute_force"]}
{"id": "C58", "title": "Hierarchy of the axioms as reported by the checkers", "statement": "If check returns True for a property, it returns True for every weaker one: stable-priceability implies priceability and core; core implies fjr; fjr implies ejr; ejr+ implies ejr; ejr implies pjr; priceability implies pjr; pjr implies jr.", "quantifier": "every profile, all non-empty committees, default quota (Gurobi); for the brute-force checks all positive quotas (unit weights for EJR and PJR, for EJR+ as in C55)", "why_tests_cant": "Tests run a few fixed profiles; the claim is about all profiles, sizes, weights and tie patterns.", "anchors": ["abcvoting/properties.py:check_core", "abcvoting/properties.py:check_FJR", "abcvoting/properties.py:check_EJR", "abcvoting/properties.py:check_EJR_plus", "abcvoting/properties.py:check_PJR", "abcvoting/properties.py:check_JR"]}
{"id": "C59", "title": "Reported violation witnesses are genuine", "statement": "Whenever a checker reports a violation, the witness it reports is a violation of the axiom; for EJR and PJR the reported group is a superset of a violating group for the reported l and joint candidates (the reported group itself need not be cohesive).", "quantifier": "every profile (unit weights for EJR and PJR), all committees, all positive quotas", "why_tests_cant": "Tests run a few fixed profiles; the claim is about all profiles, sizes, weights and tie patterns.", "anchors": ["abcvoting/properties.py:_check_EJR_brute_force", "abcvoting/properties.py:_check_PJR_brute_force", "abcvoting/properties.py:_check_JR", "abcvoting/properties.py:_check_EJR_plus", "abcvoting/properties.py:_check_FJR_brute_force", "abcvoting/properties.py:_check_core_brute_force"]}
{"id": "C60", "title": "Integer programs of the checkers decide the axioms", "statement": "With Gurobi, check_EJR, check_PJR, check_FJR, check_core and check_pareto_optimality return True iff the committee satisfies the axiom, also with weights, and the reported witness is a genuine violation. check(name, profile, committee) decides all nine properties with the default quota, rejects unknown property names and algorithms, and brute force and Gurobi give the same answer (EJR and PJR: for unit weights).", "quantifier": "every profile (any number of voters and candidates, any approval sets, any positive rational weights), all committees, all positive quotas, all exact solvers", "why_tests_cant": "A test solves single instances; equivalence of formulation and definition is universal.", "anchors": ["abcvoting/properties.py:_check_EJR_gurobi", "abcvoting/properties.py:_check_PJR_gurobi", "abcvoting/properties.py:_check_FJR_gurobi", "abcvoting/properties.py:_check_core_gurobi", "abcvoting/properties.py:_check_pareto_optimality_gurobi"]}
{"id": "C61", "title": "ILP enumeration returns exactly the optimal committees", "statement": "With an exact solver, the loops _optimize_rule_gurobi/_mip/_ortools terminate and return every committee whose objective value (recomputed by the scoring function if there is one) is optimal up to the comparison accuracy exactly once (exactly one such committee if resolute, at most max_num_of_committees otherwise). No solver call is skipped and nothing non-optimal is returned.", "quantifier": "all profiles, committee sizes, exact solvers, and all programs encoding a family of committees with an objective", "why_tests_cant": "Solver behaviours and numbers of optima are unbounded.", "anchors": ["abcvoting/abcrules_gurobi.py:_optimize_rule_gurobi", "abcvoting/abcrules_mip.py:_optimize_rule_mip", "abcvoting/abcrules_ortools.py:_optimize_rule_ortools"]}
{"id": "C62", "title": "Integer programs of the rules encode the rules", "statement": "The programs built for Thiele methods, CC (Gurobi, MIP and CP), Minimax AV (CP and Gurobi/MIP), Monroe, lexicographic CC and lexicographic Minimax AV have as optimal committees exactly those of the rule's definition, and the compute functions with these algorithms return the rule's winners.", "quantifier": "every profile (any number of voters and candidates, any approval sets, any positive rational weights), all committee sizes", "why_tests_cant": "Equivalence of formulation and definition is universal.", "anchors": ["abcvoting/abcrules_gurobi.py:_gurobi_thiele_methods", "abcvoting/abcrules_mip.py:_mip_thiele_methods", "abcvoting/abcrules_ortools.py:_ortools_cc", "abcvoting/abcrules_gurobi.py:_gurobi_minimaxav", "abcvoting/abcrules_gurobi.py:_gurobi_monroe"]}
{"id": "C63", "title": "YAML instance round trip", "statement": "read_abcvoting_yaml_file accepts exactly the documents with a profile, legal numbers, as many weights as voters, a rule id in each compute instance and no undefined keys, and builds the profile, committee size and compute instances they describe; a structurally wrong document raises MalformattedFileException. Writing a profile, committee size and compute instances with write_abcvoting_instance_to_yaml_file and reading the file gives the same number of candidates, the same approval sets and weights in the same order, the same committee size and the same compute instances (candidate names are not stored). (Finding: compute instances read from a file without committee size cannot be written again, int(None).)", "quantifier": "every document with values of the prescribed types; every profile, every optional committee size, all compute instances; assuming ruamel.yaml reads what it writes for the weights used", "why_tests_cant": "Tests run a few fixed profiles; the claim is about all profiles, sizes, weights and tie patterns.", "anchors": ["abcvoting/fileio.py:write_abcvoting_instance_to_yaml_file", "abcvoting/fileio.py:read_abcvoting_yaml_file"]}
{"id": "C64", "title": "PrefLib round trip", "statement": "Writing a profile to a PrefLib .cat file and reading it back keeps the candidates, their names and, for every approval set, the total weight of the voters with that set, where a fractional weight counts as 1; hence integral weights are preserved exactly. (Finding: fractional weights are silently replaced by 1.)", "quantifier": "every profile (any number of voters and candidates, any approval sets, any positive rational weights); assuming preflibtools reads what it writes (ballots in any order)", "why_tests_cant": "Tests run a few fixed profiles; the claim is about all profiles, sizes, weights and tie patterns.", "anchors": ["abcvoting/fileio.py:write_profile_to_preflib_cat_file", "abcvoting/fileio.py:read_preflib_file"]}
{"id": "C65", "title": "full_analysis restores the verbosity", "statement": "A message is printed iff its level is at least the verbosity set last; a logger makes no difference. full_analysis returns for each of the nine properties whether the committee has it, prints nothing during the checks and leaves the verbosity as it found it, provided no check raises. (Finding: if a check raises, e.g. for a committee with duplicates, the verbosity stays at WARNING.)", "quantifier": "all histories of output operations; all outcomes of the checks; every profile with a voter and every non-empty committee, exact solver", "why_tests_cant": "Histories including failures are unbounded.", "anchors": ["abcvoting/properties.py:full_analysis", "abcvoting/output.py:Output._print"]}
{"id": "C66", "title": "Editing operations have exactly the stated effect", "statement": "add_voter(v) with a legal approval set and positive weight appends exactly that voter; with an illegal one it raises and leaves the profile unchanged; add_voters appends the voters in order up to the first illegal one; profile[i]=v replaces exactly voter i when i is a valid index and raises otherwise.", "quantifier": "every profile, every voter (legal or not), every index", "why_tests_cant": "Histories of operations and arguments are unbounded.", "anchors": ["abcvoting/preferences.py:Profile.add_voter", "abcvoting/preferences.py:Profile.add_voters", "abcvoting/preferences.py:Profile.__setitem__"]}
{"id": "C67", "title": "Minimax-Phragmen minimises the largest load", "statement": "compute_rule('minimaxphragmen') returns exactly the committees of approved candidates whose loads can be distributed so that the largest load per unit of voter weight is minimal (exactly for integer weights of total at most 3162, up to 1e-7 for rational weights at least 1). If fewer than k candidates are approved it returns the committees containing all approved candidates (max_num_of_committees is then ignored). If all candidates have supporters of total weight below 1 it raises RuntimeError (finding).", "quantifier": "every profile (any number of voters and candidates, any approval sets, any positive rational weights), all committee sizes, all exact solvers", "why_tests_cant": "The optimum is over a continuum of load distributions and all committees.", "anchors": ["abcvoting/abcrules_gurobi.py:_gurobi_minimaxphragmen", "abcvoting/abcrules_mip.py:_mip_minimaxphragmen", "abcvoting/abcrules.py:compute_minimaxphragmen"]}
{"id": "C68", "title": "Maximin support elects best-supported candidates and satisfies PJR", "statement": "compute_rule('maximin-support') adds k times a candidate maximising the smallest support over all distributions of voter weight (exactly for integer weights and k at most 3162, up to 1e-7 otherwise); irresolute it returns all committees reachable by some tie-breaking, whatever the iteration order of sets; every exact winner satisfies PJR (for the quota n/k).", "quantifier": "every profile (any number of voters and candidates, any approval sets, any positive rational weights), all committee sizes, all exact solvers, all set iteration orders", "why_tests_cant": "The support is an optimum over a continuum of distributions; tie-breaking branches without bound.", "anchors": ["abcvoting/abcrules.py:_maximin_support_resolute", "abcvoting/abcrules.py:compute_maximin_support"]}
{"id": "C69", "title": "check_priceability and check_stable_priceability decide priceability", "statement": "check_priceability returns True iff there are a price and payments of the voters that buy exactly the committee and leave no unelected candidate affordable (check_stable_priceability: iff there is a stable price system); if fewer candidates are approved than elected it returns whether every approved candidate is elected.", "quantifier": "every profile (any number of voters and candidates, any approval sets, any positive rational weights), all non-empty committees", "why_tests_cant": "A test checks single committees; that no price system exists is a statement over all reals.", "anchors": ["abcvoting/properties.py:_check_priceability_gurobi", "abcvoting/properties.py:check_priceability", "abcvoting/properties.py:check_stable_priceability"]}
{"id": "C70", "title": "leximax-Phragmen optimises the loads level by level", "statement": "compute_rule('leximaxphragmen') returns exactly the committees of approved candidates that are optimal when the largest, second largest, ... load is minimised one after the other with the code's tolerances (1e-8 per level, 1e-7 in the last level); without tolerance these are exactly the committees whose decreasingly sorted load vector is lexicographically smallest; every returned committee is minimax-Phragmen optimal. lexicographic_tiebreaking returns the first winner in printed order.", "quantifier": "every profile (any number of voters and candidates, any approval sets, any positive rational weights) with weights at least 1, all committee sizes, all exact solvers", "why_tests_cant": "A test compares single profiles; equality of level-by-level optimisation and the leximax order over all load distributions is universal.", "anchors": ["abcvoting/abcrules_gurobi.py:_gurobi_leximaxphragmen", "abcvoting/abcrules.py:compute_leximaxphragmen"]}
{"id": "C71", "title": "Reading PrefLib ballots", "statement": "read_preflib_file(top_ranks=t) lets every voter approve the alternatives in the t topmost ranks of the ballot, read_preflib_file(setsize=s) the topmost ranks, as few as give s candidates; counts become numbers of identical voters or weights; both parameters or a negative one raise ValueError and an unparsable file MalformattedFileException. (Finding: the value 0 is accepted and gives empty approval sets.)", "quantifier": "every well-formed PrefLib instance (any alternatives, ballots, counts), all parameter values", "why_tests_cant": "Tests run a few fixed profiles; the claim is about all profiles, sizes, weights and tie patterns.", "anchors": ["abcvoting/fileio.py:read_preflib_file"]}
{"id": "C72", "title": "File selection", "statement": "get_file_names returns exactly the names with one of the given extensions, sorted, and raises FileNotFoundError for a directory without files; read_preflib_files_from_dir reads exactly the files with a PrefLib extension.", "quantifier": "all directory contents and extension lists", "why_tests_cant": "Tests run a few fixed profiles; the claim is about all profiles, sizes, weights and tie patterns.", "anchors": ["abcvoting/fileio.py:get_file_names", "abcvoting/fileio.py:read_preflib_files_from_dir"]}
{"id": "C73", "title": "random_profile builds the profile of the drawn samples", "statement": "random_profile(num_voters, num_cand, prob_distribution) makes exactly the sampler call described by the dictionary (id, parameters, defaults) and returns a profile with num_cand candidates and one unit-weight voter per drawn sample, in order, approving exactly the sampled candidates; samples that are not approval sets over the candidates raise ValueError. Fixed-size distributions ask for setsize/num_cand, hence every voter approves setsize candidates. Without id KeyError, with an unknown id ValueError, with missing or unexpected parameters TypeError is raised.", "quantifier": "every sampler behaviour (any samples or exception), all parameter dictionaries, all numbers of voters and candidates (exact division)", "why_tests_cant": "The samples are random: a test sees a few of them.", "anchors": ["abcvoting/generate.py:random_profile", "abcvoting/generate.py:prefsampling_wrapper", "abcvoting/generate.py:PROBABILITY_DISTRIBUTIONS"]}
{"id": "C74", "title": "Point distributions and Euclidean profiles", "statement": "PointProbabilityDistribution accepts exactly names that start with a dimension and center points of that dimension; for every distribution that can be used, stored dimension, center point, point sampler and election sampler agree on the dimension; unknown names raise ValueError when used. Returned points are the positions from which the approval sets were computed. (Finding: given points have precedence over a distribution, contrary to the docstring.)", "quantifier": "all names, center points, samplers and positions", "why_tests_cant": "Names and dimensions are unbounded; the positions are random.", "anchors": ["abcvoting/generate.py:PointProbabilityDistribution", "abcvoting/generate.py:prefsampling_euclidean_wrapper"]}
{"id": "C75", "title": "Floating-point arithmetic never breaks a computation", "statement": "With algorithm='float-fractions' (the default of most of these rules) compute for seqphragmen, equal-shares (all completions), phragmen-enestroem, consensus-rule and eph terminates, raises no exception (no division by zero, no min() of an empty list, no failed assertion or 'Critical bug' RuntimeError) and returns a sorted list of pairwise different committees of exactly committeesize candidates (at most committeesize for Equal Shares without completion), one if resolute, at most max_num_of_committees otherwise, whatever the rounding errors do to the scores.", "quantifier": "every profile with positive weights (seqphragmen and its use as a completion, increment completion: integer weights with (committeesize+1)*total weight <= 2^53), all committee sizes, all set iteration orders; IEEE doubles without overflow and underflow", "why_tests_cant": "Rounding errors depend on every input; a test sees a few of them.", "anchors": ["abcvoting/abcrules.py:_seqphragmen_resolute", "abcvoting/abcrules.py:_equal_shares_algorithm", "abcvoting/abcrules.py:_phragmen_enestroem_algorithm", "abcvoting/abcrules.py:_consensus_rule_algorithm", "abcvoting/abcrules.py:_eph_algorithm", "abcvoting/misc.py:isclose"]}
{"id": "C76", "title": "float-fractions elects the same committees as exact fractions", "statement": "With algorithm='float-fractions' compute returns, for seqphragmen and eph, the same list of committees as with exact fractions (resolute or not, with or without a bound) as long as different loads (scores) are not closer than the tolerance of the comparison; this is guaranteed for integer weights of small total. (Finding: without such a bound they differ, even when one candidate has twice the support of the other: loads below 1e-12 are all considered tied.)", "quantifier": "every profile with integer weights and total weight T, all committee sizes k with 2k*T^(k+1) <= 1e12 and k*(2n+8) <= 2000 (seqphragmen), n <= 998 voters and 2*T*lcm(1..num_cand) <= 1e12 (eph); every iteration order; IEEE-754 double arithmetic without overflow or underflow", "why_tests_cant": "Tests run a few fixed profiles; the claim is about all profiles, sizes, weights and tie patterns.", "anchors": ["abcvoting/abcrules.py:_seqphragmen_resolute", "abcvoting/abcrules.py:_seqphragmen_irresolute", "abcvoting/abcrules.py:_eph_algorithm", "abcvoting/misc.py:isclose"]}
{"id": "C77", "title": "What compute returns passes check", "statement": "For every valid call, each non-empty committee returned by compute(rule_id, ...) makes check(property, profile, committee) return True: pav: jr, pjr, ejr, ejr+, pareto; av, sav, slav, geom: pareto; lexminimaxav: pareto; cc, seqcc: jr; lexcc: jr, pareto; seqphragmen: jr, pjr, priceability; Equal Shares (without completion or completed by seq-Phragmen): jr, pjr, ejr, ejr+, priceability; Equal Shares with AV completion: jr, pjr, ejr, ejr+; phragmen-enestroem: jr, pjr; maximin-support: jr, pjr, priceability; leximaxphragmen: jr, pjr, if (number of voters + 1) times the total weight is below 10^7 (the solver tolerances; without tolerances always, and also priceability); monroe, greedy-monroe: jr, and pjr if committeesize divides the number of voters. (Finding: Equal Shares with increment completion violates even jr; minimaxphragmen may return committees violating jr.)", "quantifier": "every profile with at least one voter (weights as required for the rule by C31), all committee sizes, all algorithms of compute in exact arithmetic, resolute or not, both algorithms of check, all tie-breaks and solver outcomes", "why_tests_cant": "Tests run a few fixed profiles; the claim is about all profiles, sizes, weights and tie patterns.", "anchors": ["abcvoting/abcrules.py:compute", "abcvoting/properties.py:check"]}
{"id": "C78", "title": "Names of candidates and order of voters do not matter", "statement": "If the candidates are renamed (permuted) and the voters are reordered, compute(rule_id, resolute=False) returns exactly the renamed committees, and a resolute or bounded call returns renamed winning committees; with reordered voters only, the returned list is identical. This holds for every rule id and algorithm, also with different solvers and set iteration orders in the two calls; exceptions: greedy-monroe depends on the order of voters, rsd and equal-shares-with-increment-completion prefer small candidate indices.", "quantifier": "every profile, all committee sizes, every rule id known to compute, every algorithm in exact arithmetic (not float-fractions) with exact solvers; weights: unit weights for the rules that require them, supporters of total weight >= 1 for the Phragmen rules and Equal Shares with Phragmen completion, 1/D multiples for lexcc/gurobi, weights stored as Fractions for sav (int weights: C96); all permutations of candidates and voters", "why_tests_cant": "Tests run a few fixed profiles; the claim is about all profiles, sizes, weights and tie patterns.", "anchors": ["abcvoting/abcrules.py:compute"]}
{"id": "C79", "title": "The unit of the weights does not matter", "statement": "If all weights are multiplied by the same number, compute returns winning committees of the original profile, and the same list if resolute=False (positive integer factors, or any factor after which the weights still meet the requirements of the rule). Rules restricted to unit weights excluded; minimaxphragmen and maximin-support for integer weights (total at most 3162 / committeesize at most 3162).", "quantifier": "every profile, all committee sizes, every rule id known to compute, every algorithm in exact arithmetic (not float-fractions) with exact solvers; weights: unit weights for the rules that require them, supporters of total weight >= 1 for the Phragmen rules and Equal Shares with Phragmen completion, 1/D multiples for lexcc/gurobi, weights stored as Fractions for sav (int weights: C96); all factors", "why_tests_cant": "Tests run a few fixed profiles; the claim is about all profiles, sizes, weights and tie patterns.", "anchors": ["abcvoting/abcrules.py:compute"]}
{"id": "C80", "title": "Checks do not depend on names, order and units", "statement": "check(property, profile, committee) gives the same answer if candidates are renamed (in profile and committee), voters are reordered, the committee is listed in another order and all weights are multiplied by the same number; if a quota is given, it has to be multiplied too.", "quantifier": "every profile with at least one voter, all nine properties, all non-empty committees, all permutations and positive factors, all positive quotas (Gurobi algorithms, exact solver)", "why_tests_cant": "Tests run a few fixed profiles; the claim is about all profiles, sizes, weights and tie patterns.", "anchors": ["abcvoting/properties.py:check"]}
{"id": "C81", "title": "A solver that gives up never leads to a wrong answer", "statement": "Whatever the ILP/LP solvers do - they may stop without a result on any program at any time (time limit, memory, interruption) - compute either raises an exception or returns exactly what the rule elects (all winning committees if resolute=False, never a part of the list), two installations whose solvers fail differently never return different lists, and check either raises or answers correctly. A rule or check whose solver gives up on the first program raises (RuntimeError for checks) instead of returning.", "quantifier": "every profile, all rule ids, algorithms and parameters (weights as required by the rules), all nine properties, all patterns of solver failures; answers of the solver that are given are assumed right", "why_tests_cant": "failure patterns of a solver are unbounded and cannot be provoked systematically in tests", "anchors": ["abcvoting/abcrules_gurobi.py:_optimize_rule_gurobi", "abcvoting/abcrules_mip.py:_optimize_rule_mip", "abcvoting/abcrules_ortools.py:_optimize_rule_ortools", "abcvoting/properties.py:check", "abcvoting/abcrules.py:compute"]}
{"id": "C82", "title": "Keyword arguments reach the rule", "statement": "compute(id, completion=c) for any id of the Method of Equal Shares equals compute of the id with completion c (the caller's keyword replaces the one of the id; unknown completions raise ValueError), compute_rule_x(skip_phragmen_phase) is Equal Shares without completion / with seq-Phragmen completion, compute('leximaxphragmen', lexicographic_tiebreaking=True) returns the first of all winning committees in printed order and requires resolute=True, and every other keyword raises TypeError. (Finding: compute('rule-x', skip_phragmen_phase=True) raises TypeError.)", "quantifier": "every profile, all ids, all values of the other parameters, all keyword combinations", "why_tests_cant": "Tests run a few fixed profiles; the claim is about all profiles, sizes, weights and tie patterns.", "anchors": ["abcvoting/abcrules.py:compute", "abcvoting/abcrules.py:Rule", "abcvoting/abcrules.py:compute_rule_x", "abcvoting/abcrules.py:compute_equal_shares", "abcvoting/abcrules.py:compute_leximaxphragmen"]}
{"id": "C83", "title": "Solver tolerances do not change the outcome", "statement": "Let the ILP solvers report values that are off by up to 1/10 per variable (OR-Tools: exact integers) and stop at a solution whose objective is optimal only up to a gap eps; they may also give up. If different committees have objective values that differ by more than eps (integer weights and eps < 1 for CC, lex-CC, eps < 1/lcm(1..k) for PAV; always for Monroe, Minimax AV, lex-Minimax-AV when eps < 1), then compute returns exactly the committees that the rule elects, for every algorithm. Without the gap a Thiele method in resolute mode returns a committee whose score is optimal up to eps, and it can then miss the winner. check answers correctly whenever the statuses OPTIMAL/INFEASIBLE reported by the solver are right, whatever values it reports.", "quantifier": "all profiles, committee sizes, calls, solvers within the tolerance (values, gap), programs on which they give up", "why_tests_cant": "The reported values depend on solver version, hardware and search path; tests see one run each.", "anchors": ["abcvoting/abcrules_gurobi.py:_optimize_rule_gurobi", "abcvoting/abcrules_gurobi.py:_set_gurobi_model_parameters", "abcvoting/abcrules_mip.py:_optimize_rule_mip", "abcvoting/abcrules_ortools.py:_optimize_rule_ortools", "abcvoting/properties.py:_set_gurobi_model_parameters"]}
{"id": "C84", "title": "Printed sets, committees and profiles show what they should", "statement": "str_committees_with_header prints the number of committees and then one line per committee, in order, with exactly the names of its members; with names free of commas and line breaks the text determines the committees. str(profile) has one line per voter with number, weight (unless all are 1) and the names of the approved candidates; str_compact lists for every approval set the total weight of its voters. str(voter) and voter.str_with_names show exactly the approved candidates; two voters are printed in the same way iff they approve the same candidates. These functions never raise for a profile built with the API. (Finding: str_compact may list the same set on several lines, because it uses the iteration order of the set as key.)", "quantifier": "all profiles, names and lists of committees", "why_tests_cant": "Tests run a few fixed profiles; the claim is about all profiles, sizes, weights and tie patterns.", "anchors": ["abcvoting/preferences.py:Profile.__str__", "abcvoting/preferences.py:Profile.str_compact", "abcvoting/preferences.py:Voter.__str__", "abcvoting/preferences.py:Voter.str_with_names", "abcvoting/misc.py:str_committees_with_header", "abcvoting/misc.py:str_sets_of_candidates", "abcvoting/misc.py:header"]}
{"id": "C85", "title": "The printed protocol of a sequential rule is the run of the rule", "statement": "At verbosity DETAILS or below, compute for seqpav, seqslav, seqcc, seqgeom and revseq rules with resolute=True prints one block per round: the candidate added (removed), the change of the score, the new total and the candidates that are tied, exactly as in the run of the rule (smallest index of maximal gain, largest index of minimal loss); it ends with the winning committee and its score. The texts never raise, do not change the result, and what is printed depends on the verbosity only through the level of the messages. (Findings: with a verbosity above DETAILS the protocol is not written to a logger either; the protocol of reverse sequential rules does not mention ties between two candidates and calls every score a PAV-score.)", "quantifier": "all profiles with unique or default names, committee sizes, score functions, formats of numbers, verbosities", "why_tests_cant": "Tests run a few fixed profiles; the claim is about all profiles, sizes, weights and tie patterns.", "anchors": ["abcvoting/abcrules.py:compute_seq_thiele_method", "abcvoting/abcrules.py:_seq_thiele_resolute", "abcvoting/abcrules.py:compute_revseq_thiele_method", "abcvoting/abcrules.py:_revseq_thiele_resolute", "abcvoting/output.py:Output"]}
{"id": "C86", "title": "What AV and SAV print about candidates is true", "statement": "compute for av and sav prints the score of every candidate, a threshold (a candidate is in some winning committee iff its score is at least the threshold), the candidates contained in every winning committee, those contained in some but not all, and how many of the latter every winning committee contains. The texts never raise and do not change the result.", "quantifier": "all profiles, committee sizes, weights and tie patterns; SAV: weights stored as Fractions (int weights: C96)", "why_tests_cant": "Tests run a few fixed profiles; the claim is about all profiles, sizes, weights and tie patterns.", "anchors": ["abcvoting/abcrules.py:compute_separable_rule", "abcvoting/abcrules.py:_separable_rule_algorithm"]}
{"id": "C87", "title": "The printed protocol of seq-Phragmen is the run of the rule", "statement": "compute for seqphragmen (exact fractions) with resolute=True prints, for every round, the elected candidate, the loads of all voters afterwards, the maximum load and the tied candidates of the run that always elects the smallest possible candidate; with resolute=False it prints for every returned committee the loads after a run that elects it. The maximum load printed is the largest of the loads printed if the elected candidate has supporters. The texts never raise and do not change the result. (Finding: for a candidate without supporters \"maximum load increased to k+1\" is printed although no load changes and all loads are smaller.)", "quantifier": "all profiles in which every approved candidate has supporters of total weight at least 1, all committee sizes and tie patterns, both modes, every bound on the number of committees", "why_tests_cant": "Tests run a few fixed profiles; the claim is about all profiles, sizes, weights and tie patterns.", "anchors": ["abcvoting/abcrules.py:compute_seqphragmen", "abcvoting/abcrules.py:_seqphragmen_resolute", "abcvoting/abcrules.py:_seqphragmen_irresolute", "abcvoting/misc.py:str_set_of_candidates"]}
{"id": "C88", "title": "Protocol of the Method of Equal Shares", "statement": "At verbosity DETAILS and with exact arithmetic, compute_equal_shares(resolute=True) prints the start budgets and then, one after the other, exactly the purchases of the run that always buys the affordable candidate with the smallest index among those with the lowest price: number, candidate, price per unit of weight, remaining budgets, and the set of tied candidates whenever there is more than one. If (and only if) the committee is then completed by seq-Phragmen, the start loads and the rounds of that completion follow, with the numbering continued. With resolute=False only the heading, the remark and the committees are printed. With completion by increments the virtual committee size printed is the smallest one for which k candidates are bought; if fewer than k candidates are approved the text says so. No text can fail to be computed, and printing never changes the returned committees. (Finding: the start loads labelled \"budget spent\" are minus the remaining budgets per unit of weight, hence never positive, while budgets spent are never negative.)", "quantifier": "all profiles with names (in which every approved candidate has supporters of total weight at least 1 if the completion is by seq-Phragmen or increments), all committee sizes, all completions, all exact algorithms, all number formats", "why_tests_cant": "Tests run a few fixed profiles; the claim is about all profiles, sizes, weights and tie patterns.", "anchors": ["abcvoting/abcrules.py:compute_equal_shares", "abcvoting/abcrules.py:_equal_shares_algorithm", "abcvoting/abcrules.py:_equal_shares_algorithm_with_increment_completion"]}
{"id": "C89", "title": "The assignment printed by Greedy Monroe", "statement": "compute for greedy-monroe prints the number of represented voters of an assignment of all voters to the members of the committee, a remark with the best possible number if and only if some balanced assignment to the same committee represents more voters, and one line per member in the order of election with the voters assigned to it, those not approving it marked. The assignment is balanced, extends the districts of the greedy run, gives the t-th member a district of the size fixed by the rule, and represents exactly the voters in these districts. The texts never raise and do not change the result.", "quantifier": "all profiles with unit weights, committee sizes, iteration orders of the set of remaining candidates, exact matching and flow libraries", "why_tests_cant": "Tests run a few fixed profiles; the claim is about all profiles, sizes, weights and tie patterns.", "anchors": ["abcvoting/abcrules.py:compute_greedy_monroe", "abcvoting/abcrules.py:_greedy_monroe_algorithm", "abcvoting/scores.py:monroescore"]}
{"id": "C90", "title": "What the optimisation rules print is true", "statement": "With every algorithm, compute for Thiele methods (PAV, SLAV, CC, geometric), lex-CC, Minimax AV, lex-Minimax-AV and Monroe prints (after a warning, issued exactly if an ILP solver is used for a Thiele method and one of the positive marginal scores f(1), ..., f(k) is smaller than 1e-8) the heading, the remark on resolute, the algorithm, the returned committees and the true optimum: the largest score of all committees of the size; the optimal vector of at-least-ell scores; the smallest possible maximal distance and the distances of all voters to every committee returned; the largest number of represented voters. Every algorithm that passes the parameter check has a printable name. minimax-Phragmen, leximax-Phragmen, Enestroem, the consensus rule, the trivial rule, RSD and EPH print just the heading, the remark, the algorithm and the committees. The texts never raise and do not change the result. (Findings: lex-Minimax-AV prints the lists of distances of several committees without separation; leximax-Phragmen with lexicographic_tiebreaking=True does not print the remark for resolute calls; the trivial rule, RSD and EPH print the committees before they are sorted.)", "quantifier": "all profiles, committee sizes, algorithms, exact solvers, matchings and flows (solver tolerances as in C62)", "why_tests_cant": "Tests run a few fixed profiles; the claim is about all profiles, sizes, weights and tie patterns.", "anchors": ["abcvoting/abcrules.py:compute_thiele_method", "abcvoting/abcrules.py:compute_lexcc", "abcvoting/abcrules.py:compute_minimaxav", "abcvoting/abcrules.py:compute_lexminimaxav", "abcvoting/abcrules.py:compute_monroe", "abcvoting/abcrules.py:compute_minimaxphragmen", "abcvoting/abcrules.py:compute_leximaxphragmen", "abcvoting/abcrules.py:compute_trivial_rule", "abcvoting/abcrules.py:compute_rsd", "abcvoting/abcrules.py:compute_eph"]}
{"id": "C91", "title": "The protocol of maximin support is true", "statement": "compute for maximin-support with resolute=True prints the heading, the algorithm, one block per round and the committee returned. In every round the candidate added is a best one, the candidates reported as tied are exactly the best ones, and the reported maximin support value is the largest support that all members elected so far can have at the same time (up to 10^-7; exactly for integer weights and k <= 3162); the last round ends with the committee returned. With resolute=False heading, remark, algorithm and the committees returned are printed. The texts never raise and do not change the result. (Finding: the line on the tie names the candidate by its number, not by its name.)", "quantifier": "all profiles, committee sizes, solvers that solve linear programs exactly, iteration orders of sets", "why_tests_cant": "Tests run a few fixed profiles; the claim is about all profiles, sizes, weights and tie patterns.", "anchors": ["abcvoting/abcrules.py:compute_maximin_support", "abcvoting/abcrules.py:_maximin_support_resolute", "abcvoting/abcrules_mip.py:_mip_maximin_support_scorefct"]}
{"id": "C92", "title": "At verbosity INFO every rule prints its name, the remark on resolute and the winning committees, and nothing else", "statement": "For every rule id and every valid call: printing raises no exception and does not change what compute returns; at verbosity INFO exactly the heading with the long name of the rule, the remark on resolute (optimisation rules: if only one committee is computed; sequential rules: if all are) and the list of winning committees with the names of the candidates are printed, preceded by the warning that the marginal scores are too small for the ILP solver if that is so (C90); at the default verbosity WARNING only that warning, above nothing. The committees are listed in the order in which they are returned, except for the trivial rule, RSD and EPH, where the order may differ.", "quantifier": "all rule ids, profiles with candidate names, committee sizes, algorithms with exact arithmetic or exact solvers, verbosities, texts printed before", "why_tests_cant": "Tests run a few fixed profiles; the claim is about all profiles, sizes, weights and tie patterns.", "anchors": ["abcvoting/abcrules.py:compute", "abcvoting/abcrules.py:Rule", "abcvoting/output.py:Output", "abcvoting/misc.py:str_committees_with_header", "abcvoting/misc.py:header"]}
{"id": "C93", "title": "What the checks of properties print is true", "statement": "check and full_analysis print what is the case and printing never changes their result. A check with an exact solver prints one line with the committee, the right verdict and (if one was given) the quota; for a violation one more line which names a group of voters with its true share of the weight, candidates and numbers that really witness the violation (JR, PJR, EJR, EJR+, FJR, core, Pareto optimality). The checks of priceability and stable priceability print, for unit weights, the smallest possible budget and a table of payments that supports the committee, or that there is none. With brute force the same is true of JR, EJR+, FJR, core and Pareto optimality; for EJR and PJR the printed group is only the set of all voters approving too few members, which contains a witness (finding: what is printed can be false). full_analysis prints nothing of this, but nine lines with the name of each property and whether the committee has it, and restores the verbosity.", "quantifier": "all profiles (any number of voters, candidates, weights), committees, quotas > 0, algorithms, orders of sets, number formats, exact solvers and starting outputs", "why_tests_cant": "Tests run a few fixed profiles; the claim is about all profiles, sizes, weights and tie patterns.", "anchors": ["abcvoting/properties.py:check", "abcvoting/properties.py:full_analysis", "abcvoting/properties.py:check_pareto_optimality", "abcvoting/properties.py:check_EJR", "abcvoting/properties.py:check_PJR", "abcvoting/properties.py:check_JR", "abcvoting/properties.py:check_EJR_plus", "abcvoting/properties.py:check_FJR", "abcvoting/properties.py:check_core", "abcvoting/properties.py:check_priceability", "abcvoting/properties.py:_check_priceability_gurobi", "abcvoting/misc.py:str_set_of_candidates"]}
{"id": "C94", "title": "Equal Shares with floats elects the same committees as with exact fractions", "statement": "With algorithm='float-fractions' compute returns for equal-shares, with every completion (seqphragmen, av, increment, none) and under every alias, the same list of committees as with exact fractions (resolute or not, with or without a bound), as long as the weights are integers of small total: no rounding error makes a candidate affordable that is not, hides an affordable one, creates or breaks a tie, or changes what the completion phase starts from. (Finding: for large weights the results differ, even in the number of candidates bought: prices below 1e-12 are all considered tied.)", "quantifier": "every profile with integer weights, n voters and total weight T and every committee size k with 2k*T^(k+2) <= 1e12 and (k+1)*(n+k+5) <= 360 (seqphragmen completion: k^2*(n+8) <= 360; increment completion: (k+1)*(n+k*T+5) <= 360); every set iteration order; IEEE-754 double arithmetic without overflow or underflow", "why_tests_cant": "Tests run a few fixed profiles; the claim is about all profiles, sizes, weights and tie patterns.", "anchors": ["abcvoting/abcrules.py:_equal_shares_algorithm", "abcvoting/abcrules.py:_equal_shares_algorithm_with_increment_completion", "abcvoting/abcrules.py:compute_equal_shares", "abcvoting/misc.py:isclose"]}
{"id": "C95", "title": "Profiles are independent objects", "statement": "Profiles, voters and approval sets are mutable objects, and profile[i] hands out the stored Voter itself. In every history of a program: no Voter object is stored twice (in one or in several profiles) and no two voters share their approval set object; a method call, or a change of a voter's weight or approval set in place, affects at most one profile, and every profile it does not concern looks the same afterwards; Voter objects passed to add_voter, add_voters or profile[i]=... are never modified and later changes to them do not reach the profile; copy() returns a profile with the same content, and afterwards changes to either one (also in place) never show in the other; P.add_voters(Q) adds the voters of another profile Q in order. (Finding: P.add_voters(P) never terminates.)", "quantifier": "every finite sequence of operations (constructors, methods, assignments to weight and approved, additions to and removals from approval sets) on any number of profiles and voters, including operations that raise", "why_tests_cant": "Aliasing shows only in particular interleavings of operations on several objects; a test tries a few.", "anchors": ["abcvoting/preferences.py:Profile._unique_voter", "abcvoting/preferences.py:Profile.add_voter", "abcvoting/preferences.py:Profile.add_voters", "abcvoting/preferences.py:Profile.__setitem__", "abcvoting/preferences.py:Profile.copy", "abcvoting/preferences.py:Profile.convert_to_unit_weights", "abcvoting/preferences.py:Profile.convert_to_weighted", "abcvoting/preferences.py:Voter", "abcvoting/misc.py:CandidateSet"]}
{"id": "C96", "title": "AV and SAV with Python numbers: rounding never elects a losing committee", "statement": "compute_av and compute_sav compute with the weights as they are stored (int / int is a float) and compare scores without tolerance. If the weights are Fractions, the result is the exact one (C20); AV is also exact for int weights. For int weights of moderate size, every committee returned by compute_sav is a winning committee: for every committee size there is a non-empty set Q of winning committees such that resolute=True returns one of Q, resolute=False all of Q, max_num_of_committees=n min(n, |Q|) of them; a unique winning committee is always the result. (Findings: with int weights - the default - Q can be a proper subset of the winning committees, and which ties survive depends on the order of the voters.)", "quantifier": "every profile with int weights such that D * total weight * (9 + 6 * number of voters) < 2^53 for a common multiple D of the ballot sizes; every profile whose different scores are farther apart than the rounding error; Fraction weights: every profile; all arguments", "why_tests_cant": "Tests run a few fixed profiles; the claim is about all profiles, sizes, weights and tie patterns.", "anchors": ["abcvoting/abcrules.py:_separable_rule_algorithm", "abcvoting/abcrules.py:compute_separable_rule", "abcvoting/abcrules.py:compute_sav", "abcvoting/abcrules.py:compute_av"]}
{"id": "C97", "title": "Party lists: the rules become the classical apportionment methods", "statement": "If Profile.is_party_list() is true, then compute elects exactly the outcomes of a classical apportionment method, where a party is a set of candidates approved by the same voters and its votes are their total weight: 'pav', 'seqpav', 'revseqpav', 'seqphragmen', 'rule-x', 'equal-shares' and 'equal-shares-with-seqphragmen-completion' and 'maximin-support' elect the D'Hondt outcomes (and all of them are among the committees returned by 'minimaxphragmen'), 'slav', 'seqslav', 'revseqslav' the Sainte-Lague outcomes, 'phragmen-enestroem' the outcomes of largest remainders, and so do 'monroe' and 'greedy-monroe' (which returns one of them) if the committee size divides the number of voters; 'cc', 'geom<base>' and their (reverse) sequential versions the outcomes of the corresponding divisor method; Equal Shares without completion gives every party exactly its lower quota. Consequently optimisation, sequential and reverse sequential versions agree; D'Hondt and largest remainders respect lower quota; largest remainders also upper quota. Parties with too few candidates, unapproved candidates, ties and weights are included.", "quantifier": "every profile for which is_party_list() is true (any weights > 0 stored exactly; with algorithm ortools-cp integer weights; for the rules based on loads and budgets exact arithmetic, and for seqphragmen and equal shares with completion every approved candidate has supporters of total weight at least 1; base > 1 for geom; unit weights for the Monroe rules), every committee size, resolute setting and max_num_of_committees, with the algorithms and solver assumptions of C31", "why_tests_cant": "Tests run a few fixed profiles; the claim is about all profiles, sizes, weights and tie patterns.", "anchors": ["abcvoting/abcrules.py:compute", "abcvoting/abcrules.py:_seqphragmen_irresolute", "abcvoting/abcrules.py:compute_equal_shares", "abcvoting/abcrules.py:compute_thiele_method", "abcvoting/abcrules.py:compute_phragmen_enestroem", "abcvoting/preferences.py:is_party_list"]}
{"id": "C98", "title": "Consistency: committees that win in two electorates win in their union", "statement": "Let two profiles have the same number of candidates and let a third profile consist of the voters of both (e.g. made with Profile.add_voters). If compute(resolute=False) returns at least one common committee for the two profiles, then for 'av', 'sav', 'pav', 'slav', 'cc', 'geom<base>' (base > 1) and 'lexcc' the committees returned for the third profile are exactly the committees returned for both; for 'minimaxav' every common committee is returned. The three calls may use different algorithms.", "quantifier": "all profiles p, q and r where the ballots of r are those of p and q in any order, all committee sizes, all combinations of available algorithms; integer weights for ortools-cp, the documented granularity of weights for lexcc with gurobi", "why_tests_cant": "Tests run a few fixed profiles; the claim is about all profiles, sizes, weights and tie patterns.", "anchors": ["abcvoting/abcrules.py:compute", "abcvoting/abcrules.py:compute_separable_rule", "abcvoting/abcrules.py:compute_thiele_method", "abcvoting/abcrules.py:compute_lexcc", "abcvoting/abcrules.py:compute_minimaxav", "abcvoting/preferences.py:add_voters"]}
{"id": "C99", "title": "Candidate monotonicity: additional approvals never harm a candidate", "statement": "If some voters additionally approve candidate c (nothing else changes), then compute(resolute=False) treats c at least as well as before: if c was in some returned committee it still is in some, and if c was in all returned committees it still is in all. Holds for 'av', 'sav', 'pav', 'slav', 'cc', 'geom<base>' (base > 1), 'lexcc', 'minimaxav', 'lexminimaxav', 'monroe', the sequential Thiele methods, 'seqphragmen', 'minimaxphragmen', 'maximin-support', 'phragmen-enestroem', 'consensus-rule' and Equal Shares (all ids except the completion by increments). (For answers with resolute=True, and for greedy Monroe, see C117.) The two calls may use different algorithms.", "quantifier": "all profiles p, candidates c and sets of voters that add c to their ballots, all committee sizes, all combinations of available algorithms; unit weights for lexminimaxav and monroe, integer weights for ortools-cp, maximin-support (k <= 3162) and minimaxphragmen (total at most 3162, at least k approved candidates), exact arithmetic for the rules with fractions, approvers of total weight at least 1 for seqphragmen and equal-shares", "why_tests_cant": "Tests run a few fixed profiles; the claim is about all profiles, sizes, weights and tie patterns.", "anchors": ["abcvoting/abcrules.py:compute", "abcvoting/abcrules.py:_equal_shares_algorithm", "abcvoting/abcrules.py:compute_maximin_support", "abcvoting/abcrules.py:compute_phragmen_enestroem", "abcvoting/abcrules.py:compute_consensus_rule", "abcvoting/abcrules.py:_seqphragmen_irresolute", "abcvoting/abcrules.py:compute_thiele_method", "abcvoting/abcrules.py:compute_seq_thiele_method", "abcvoting/abcrules.py:compute_monroe", "abcvoting/abcrules.py:compute_minimaxav"]}
{"id": "C100", "title": "Checks with a quota given as a float answer correctly up to the rounding of the quota", "statement": "check(name, profile, committee, quota=q) for 'jr', 'pjr', 'ejr', 'ejr+', 'fjr' and 'core' accepts q as an int, Fraction or float. For int and Fraction quotas the answer is the exact one. For float quotas: with integer weights, True is returned only if the property holds for the exact value of q, and False only if it is violated for some quota between q(1 - 2^-52) and q (for 'jr' and with the solver-based algorithms: exactly if it is violated for q); with Fraction weights the answer is right up to the factors 1 - 2^-52 and 1 + 2^-51 of q. 'ejr+' requires that no voter approves more members than the voters together deserve (otherwise KeyError). (Finding: the Hare quota computed as the float 9/7 for 9 voters and 7 seats is larger than 9/7: check_EJR no longer reports a violation that it reports for the default quota, and check_EJR_plus raises KeyError.)", "quantifier": "all profiles with int or Fraction weights, committees, positive quotas of any numeric type, all algorithms (unit weights for the brute-force checks of pjr and ejr); fewer than 2^53 candidates, total weight at most 2^53 for the statement about integer weights", "why_tests_cant": "Tests run a few fixed profiles; the claim is about all profiles, sizes, weights and tie patterns.", "anchors": ["abcvoting/properties.py:check", "abcvoting/properties.py:check_EJR", "abcvoting/properties.py:_check_EJR_brute_force", "abcvoting/properties.py:_check_PJR_brute_force", "abcvoting/properties.py:_check_EJR_plus", "abcvoting/properties.py:_check_FJR_brute_force", "abcvoting/properties.py:_check_core_brute_force", "abcvoting/properties.py:_check_JR"]}
{"id": "C101", "title": "A candidate is never elected without the candidates that have strictly more supporters", "statement": "If every voter who approves candidate d also approves candidate c, and some voter approves c but not d, then no committee returned for 'av', 'sav', 'pav', 'slav', 'geom<base>', 'lexcc', 'lexminimaxav', 'eph', or a sequential or reverse sequential Thiele rule with positive scores contains d but not c. If every voter who approves d also approves c (c may have the same supporters), then for 'av', 'sav', the Thiele rules including 'cc', 'lexcc', 'monroe', 'minimaxav', 'lexminimaxav', 'minimaxphragmen' and 'trivial', together with a committee containing d but not c also the committee with d replaced by c is returned (when all committees are requested).", "quantifier": "all profiles, committee sizes, pairs of candidates, all algorithms of these rules under the conditions under which they are exact", "why_tests_cant": "Tests run a few fixed profiles; the claim is about all profiles, sizes, weights and tie patterns.", "anchors": ["abcvoting/abcrules.py:compute", "abcvoting/abcrules.py:compute_av", "abcvoting/abcrules.py:compute_thiele_method", "abcvoting/abcrules.py:compute_seq_thiele_method", "abcvoting/abcrules.py:compute_revseq_thiele_method", "abcvoting/abcrules.py:compute_eph", "abcvoting/abcrules.py:compute_lexminimaxav", "abcvoting/abcrules.py:compute_minimaxphragmen", "abcvoting/abcrules.py:compute_monroe"]}
{"id": "C102", "title": "Candidates approved by nobody are elected last", "statement": "No committee returned for the rules of C101, or for 'seqphragmen', 'minimaxphragmen', 'leximaxphragmen', 'maximin-support', the Method of Equal Shares with any completion, or 'rsd', contains a candidate that no voter approves while an approved candidate is left out.", "quantifier": "all profiles, committee sizes; all algorithms of these rules under the conditions under which they are exact (for minimaxphragmen and leximaxphragmen: at least k approved candidates)", "why_tests_cant": "Tests run a few fixed profiles; the claim is about all profiles, sizes, weights and tie patterns.", "anchors": ["abcvoting/abcrules.py:compute", "abcvoting/abcrules.py:compute_seqphragmen", "abcvoting/abcrules.py:compute_maximin_support", "abcvoting/abcrules.py:compute_equal_shares", "abcvoting/abcrules.py:compute_rsd", "abcvoting/abcrules.py:compute_leximaxphragmen"]}
{"id": "C103", "title": "Only the total weight of every ballot matters, and voters who approve nobody do not matter", "statement": "compute(rule_id, profile, k, ...) returns the same committees for two profiles in which every approval set has the same total weight (voters reordered, voters with the same approval set merged or split), for every rule except greedy Monroe, leximax-Phragmén, random serial dictator and Equal Shares completed by increments (for the last see C118), whatever algorithms and solvers the two calls use. For av, sav, all Thiele rules and their (reverse) sequential versions, lexcc, seqphragmen, minimaxphragmen, maximin-support, lexminimaxav, eph and trivial it is enough that every nonempty approval set has the same total weight: voters with empty ballots can be added or removed. (For Equal Shares and minimax-AV empty ballots matter.)", "quantifier": "all pairs of profiles with the same electorate (up to empty ballots), committee sizes, algorithms, arguments; all committees requested in the first call, any number in the second; exact arithmetic, conditions of C31 for both calls", "why_tests_cant": "Tests run a few fixed profiles; the claim is about all profiles, sizes, weights and tie patterns.", "anchors": ["abcvoting/abcrules.py:compute", "abcvoting/preferences.py:Profile.convert_to_weighted", "abcvoting/preferences.py:Profile.convert_to_unit_weights", "abcvoting/abcrules.py:compute_seqphragmen", "abcvoting/abcrules.py:compute_equal_shares", "abcvoting/abcrules.py:compute_maximin_support", "abcvoting/abcrules.py:compute_consensus_rule"]}
{"id": "C104", "title": "Phragmén-Eneström and the consensus rule with floats elect the same committees as with exact fractions", "statement": "With algorithm='float-fractions' compute returns for phragmen-enestroem and consensus-rule the same list of committees as with exact fractions (resolute or not, with or without a bound), as long as different supports are not closer than the tolerance of the comparison (and, for the consensus rule, budgets are zero or not closer to zero than it); this is guaranteed for integer weights of small total. No rounding error makes a voter in debt a supporter, creates or breaks a tie, or changes later rounds. (Finding: for weights of about 1e13 the results differ: the candidate of smaller support is elected.)", "quantifier": "every profile with integer weights, n voters and total weight T and every committee size k with 2k*T^k <= 1e12 and k*T*(16k+5n+20) <= 3600 (consensus-rule), 2T*(kT)^(2^(k-1)-1) <= 1e12 and 2^k*T*(5n+46) <= 7200 (phragmen-enestroem), or separated supports instead of the first bound; IEEE-754 double arithmetic without overflow or underflow", "why_tests_cant": "Tests run a few fixed profiles; the claim is about all profiles, sizes, weights and tie patterns.", "anchors": ["abcvoting/abcrules.py:_phragmen_enestroem_algorithm", "abcvoting/abcrules.py:_consensus_rule_algorithm", "abcvoting/abcrules.py:compute_phragmen_enestroem", "abcvoting/abcrules.py:compute_consensus_rule", "abcvoting/misc.py:isclose"]}
{"id": "C105", "title": "Tie-breaking: which of several winning committees is returned", "statement": "AV and SAV return with resolute=True or max_num_of_committees the lexicographically first of the winning committees (of two candidates with equal score, the one with the smaller index has priority). So does a Thiele rule with algorithm='brute-force' and resolute=True. For branch-and-bound, for brute-force with max_num_of_committees and for the brute-force algorithms of lexcc, minimaxav, lexminimaxav and monroe the committees returned are the first ones of the list an irresolute call without bound returns (which is sorted by printed form, so that from 11 candidates on {10} precedes {2}).", "quantifier": "every profile (any number of voters and candidates, any approval sets, any positive rational weights), every rule named, every valid committee size, resolute flag and bound", "why_tests_cant": "Which committee is picked depends on the order in which committees are enumerated and on every tie of the profile; tests pin single outputs of small profiles, with fewer than 11 candidates.", "anchors": ["abcvoting/abcrules.py:_separable_rule_algorithm", "abcvoting/abcrules.py:_thiele_methods_bruteforce", "abcvoting/abcrules.py:_thiele_methods_branchandbound", "abcvoting/misc.py:sorted_committees"]}
{"id": "C106", "title": "Approval voting is strategyproof", "statement": "A voter cannot gain by casting a ballot other than the sincere one under AV: with resolute=True the committee returned contains at most as many of the candidates the voter really approves; with resolute=False neither the best nor the worst winning committee contains more of them. (PAV and SAV do not have this property: concrete profiles.)", "quantifier": "every profile (any number of voters and candidates, any approval sets, any positive rational weights), every voter, every other ballot of this voter, every committee size", "why_tests_cant": "The quantification is over all elections and all misreports; the tie-breaking matters as well (an unfortunate one makes even AV manipulable).", "anchors": ["abcvoting/abcrules.py:compute_separable_rule", "abcvoting/abcrules.py:_separable_rule_algorithm"]}
{"id": "C107", "title": "Unanimity and perfect representation", "statement": "If all voters approve exactly the same candidates, then compute elects only these as long as there are any left (in particular exactly these, as the only committee, if there are as many as seats). This holds for all rules except those that represent every voter only once (CC, seq-CC, reverse seq-CC), the trivial rule and, with fewer voters than seats, Monroe and Greedy Monroe. Moreover, with unit weights, if some committee gives perfect representation (the voters can be divided equally among the members such that everybody approves their representative) then Monroe, minimax-Phragmén and leximax-Phragmén return only such committees; PAV does not guarantee this.", "quantifier": "every profile (any number of voters and candidates, any approval sets, any positive rational weights) with equal ballots, every rule named and every call; every profile with unit weights (at most 3162 voters for the Phragmen rules) and a perfectly representing committee; exact arithmetic and exact solvers; weights as in C31: unit weights for lexminimaxav and the Monroe rules, integer weights for ortools-cp and maximin-support (k <= 3162), integer weights of total at most 3162 for minimaxphragmen, supporters of total weight at least 1 for seqphragmen and Equal Shares with Phragmen or increment completion", "why_tests_cant": "Needs all sizes of ballots, committees and electorates; budgets, loads and districts have to be tracked through all rounds.", "anchors": ["abcvoting/abcrules.py:compute", "abcvoting/abcrules.py:_phragmen_enestroem_algorithm", "abcvoting/abcrules.py:_consensus_rule_algorithm", "abcvoting/abcrules.py:_greedy_monroe_algorithm", "abcvoting/abcrules.py:compute_monroe", "abcvoting/abcrules.py:compute_minimaxphragmen"]}
{"id": "C108", "title": "Sequential Thiele methods approximate the optimal score", "statement": "Every committee returned by compute for seqpav, seqslav, seqcc, seqav or seqgeom<base> (base at least 1) has at least the fraction 1-(1-1/k)^k, hence at least 1-1/e (63 percent), of the Thiele score of every committee of the same size, in particular of the winners of pav, slav, cc, av and geom<base>. The optimum itself is not guaranteed.", "quantifier": "every profile (any number of voters and candidates, any approval sets, any positive rational weights), every committee size and every such score", "why_tests_cant": "A statement about all profiles and all competing committees; the sharp bound is only approached by large elections.", "anchors": ["abcvoting/abcrules.py:compute", "abcvoting/abcrules.py:_seq_thiele_resolute", "abcvoting/abcrules.py:_seq_thiele_irresolute", "abcvoting/scores.py:thiele_score"]}
{"id": "C109", "title": "Average satisfaction of groups", "statement": "For every committee returned by compute for pav, the voters of any group that agrees on a candidate who is not elected approve on (weighted) average at least (k+1)*(share of the group in the electorate)-1 committee members; hence the voters of an l-cohesive group approve on average at least l-1+min(1,l/k), so more than l-1, committee members. For pav and for Equal Shares (without completion, with seq-Phragmen or with AV completion) they approve on average at least (l-1)/2.", "quantifier": "every profile (any number of voters and candidates, any approval sets, any positive rational weights), every call, all groups of voters and all l; exact arithmetic and exact solvers; weights as in C31: unit weights for lexminimaxav and the Monroe rules, integer weights for ortools-cp and maximin-support (k <= 3162), integer weights of total at most 3162 for minimaxphragmen, supporters of total weight at least 1 for seqphragmen and Equal Shares with Phragmen or increment completion", "why_tests_cant": "Quantifies over all groups of voters of all profiles.", "anchors": ["abcvoting/abcrules.py:compute", "abcvoting/abcrules.py:compute_thiele_method", "abcvoting/abcrules.py:compute_equal_shares"]}
{"id": "C110", "title": "With a single seat the rules are approval voting", "statement": "For committee size 1, compute returns the candidates with the largest approval weight (all of them, as one-element committees, in an irresolute call) for av, pav, slav, cc, geom<base>, lexcc, all sequential Thiele methods, seqphragmen, minimaxphragmen, maximin-support, monroe, greedy-monroe, Equal Shares with seq-Phragmen or AV completion, phragmen-enestroem and consensus-rule; irresolute calls of any two of them return the same list. Equal Shares with increment completion elects one of them. For sav and the reverse sequential rules this fails.", "quantifier": "every profile (any number of voters and candidates, any approval sets, any positive rational weights) and every such rule and algorithm; exact arithmetic and exact solvers; weights as in C31: unit weights for lexminimaxav and the Monroe rules, integer weights for ortools-cp and maximin-support (k <= 3162), integer weights of total at most 3162 for minimaxphragmen, supporters of total weight at least 1 for seqphragmen and Equal Shares with Phragmen or increment completion", "why_tests_cant": "All profiles; agreement of some fifteen differently implemented algorithms.", "anchors": ["abcvoting/abcrules.py:compute", "abcvoting/abcrules.py:compute_separable_rule", "abcvoting/abcrules.py:_seqphragmen_resolute", "abcvoting/abcrules.py:_equal_shares_algorithm", "abcvoting/abcrules.py:_consensus_rule_algorithm", "abcvoting/abcrules.py:_monroe_bruteforce"]}
{"id": "C111", "title": "Additional candidates whom nobody approves do not matter", "statement": "If candidates whom nobody approves are added to an election that has at least as many approved candidates as seats, then compute has the same winning committees as before; irresolute calls return exactly the same list. This holds for av, sav, pav, slav, geom<base>, lexcc, lexminimaxav, the (reverse) sequential Thiele methods except the CC variants, seqphragmen, minimaxphragmen, maximin-support and all variants of Equal Shares. For cc it fails, and so it does for all rules if there are fewer approved candidates than seats.", "quantifier": "every profile (any number of voters and candidates, any approval sets, any positive rational weights), every number of additional candidates, every such rule and call; exact arithmetic and exact solvers; weights as in C31: unit weights for lexminimaxav and the Monroe rules, integer weights for ortools-cp and maximin-support (k <= 3162), integer weights of total at most 3162 for minimaxphragmen, supporters of total weight at least 1 for seqphragmen and Equal Shares with Phragmen or increment completion", "why_tests_cant": "All profiles, committee sizes and numbers of additional candidates.", "anchors": ["abcvoting/abcrules.py:compute", "abcvoting/abcrules.py:_revseq_thiele_irresolute", "abcvoting/abcrules.py:_seqphragmen_irresolute", "abcvoting/abcrules.py:_equal_shares_algorithm", "abcvoting/abcrules_mip.py:_mip_maximin_support_scorefct"]}
{"id": "C112", "title": "New voters who approve only one candidate never harm that candidate", "statement": "If new voters (of any weights) are added who approve candidate c and nobody else, then compute(resolute=False) treats c at least as well as before: if c was in some returned committee it still is in some, and if c was in all returned committees it still is in all. Holds for av, sav, pav, slav, cc, geom<base> (base > 1), lexcc, minimaxav, lexminimaxav, the sequential and the reverse sequential Thiele methods, seqphragmen, minimaxphragmen and maximin-support. The two calls may use different algorithms.", "quantifier": "every profile (any number of voters and candidates, any approval sets, any positive rational weights), every candidate c, every list of new voters, every committee size, all combinations of available algorithms; unit weights for lexminimaxav, integer weights for ortools-cp, maximin-support (k <= 3162) and minimaxphragmen (total at most 3162, at least k approved candidates), exact arithmetic and approvers of total weight at least 1 for seqphragmen", "why_tests_cant": "Tests run a few fixed profiles; the claim is about all profiles, sizes, weights and tie patterns.", "anchors": ["abcvoting/abcrules.py:compute", "abcvoting/abcrules.py:compute_revseq_thiele_method", "abcvoting/abcrules.py:_revseq_thiele_irresolute", "abcvoting/abcrules.py:compute_minimaxav", "abcvoting/abcrules.py:_seqphragmen_irresolute", "abcvoting/preferences.py:Profile.add_voter"]}
{"id": "C113", "title": "Larger quotas and larger committees pass the checks", "statement": "If check(name, profile, W, quota=q) is True for jr, pjr, ejr, ejr+, fjr or core, then check(name, profile, W2, quota=q2) is True for every committee W2 containing W and every q2 >= q (for the default quota: the quota in force). With the default quota a larger committee may fail, because its quota is smaller.", "quantifier": "every profile (any number of voters and candidates, any approval sets, any positive rational weights), all committees W and W2 with W contained in W2, all positive quotas q <= q2, both available algorithms fastest and gurobi (also different ones), with an exact solver; for ejr+ quotas in the range in which the check is right (C55)", "why_tests_cant": "Tests run a few fixed profiles; the claim is about all profiles, sizes, weights and tie patterns.", "anchors": ["abcvoting/properties.py:check", "abcvoting/properties.py:check_JR", "abcvoting/properties.py:check_PJR", "abcvoting/properties.py:check_EJR", "abcvoting/properties.py:check_EJR_plus", "abcvoting/properties.py:check_FJR", "abcvoting/properties.py:check_core"]}
{"id": "C114", "title": "Only the total weight of every ballot matters to the checks", "statement": "check returns the same for two profiles in which every ballot (set of approved candidates) has the same total weight: voters may be reordered, and voters with the same ballot may be merged into one with the sum of their weights. Voters who approve nobody do not matter for pareto, priceability and stable-priceability, and not for jr, pjr, ejr, ejr+, fjr and core with a given quota; with the default quota they do, because they increase it.", "quantifier": "every pair of profiles (any number of voters and candidates, any approval sets, any positive rational weights) with the same total weight of every (nonempty) ballot, every nonempty committee, every property name, algorithms fastest and gurobi with exact solvers; for ejr+ with a given quota: in the range in which the check is right (C55)", "why_tests_cant": "Tests run a few fixed profiles; the claim is about all profiles, sizes, weights and tie patterns.", "anchors": ["abcvoting/properties.py:check", "abcvoting/properties.py:check_pareto_optimality", "abcvoting/properties.py:check_JR", "abcvoting/properties.py:check_PJR", "abcvoting/properties.py:check_EJR", "abcvoting/properties.py:check_EJR_plus", "abcvoting/properties.py:check_FJR", "abcvoting/properties.py:check_core", "abcvoting/properties.py:check_priceability", "abcvoting/properties.py:check_stable_priceability"]}
{"id": "C115", "title": "Approvals of a losing candidate do not influence the outcome", "statement": "If some voters additionally approve candidate c (or withdraw their approval) and c is in no winning committee while approved by them, then compute returns exactly the same winning committees with and without these approvals. Even if c is in some winning committee, every winning committee without c also wins without these approvals. For av, the Thiele methods and their sequential variants, lexcc, sequential Phragmen, minimax-Phragmen and maximin support the same holds for new voters who approve only c. (Satisfaction approval voting and minimax approval voting do not have this property.)", "quantifier": "every profile (any number of voters and candidates, any approval sets, any positive rational weights), every candidate c, every set of voters who add c to their ballots, every committee size, both calls asking for all committees, each with any available algorithm and exact solver; av, pav, slav, cc, geom<b> with b>1, lexcc, seqpav and the other sequential Thiele methods, seqphragmen, minimaxphragmen, maximin-support, monroe, phragmen-enestroem, consensus-rule, equal-shares and its variants; exact arithmetic and exact solvers; weights as in C31: unit weights for lexminimaxav and the Monroe rules, integer weights for ortools-cp and maximin-support (k <= 3162), integer weights of total at most 3162 for minimaxphragmen, supporters of total weight at least 1 for seqphragmen and Equal Shares with Phragmen or increment completion", "why_tests_cant": "Tests run a few fixed profiles; the claim is about all profiles, sizes, weights and tie patterns.", "anchors": ["abcvoting/abcrules.py:compute", "abcvoting/abcrules.py:compute_av", "abcvoting/abcrules.py:compute_thiele_method", "abcvoting/abcrules.py:compute_seq_thiele_method", "abcvoting/abcrules.py:compute_lexcc", "abcvoting/abcrules.py:compute_seqphragmen", "abcvoting/abcrules.py:compute_minimaxphragmen", "abcvoting/abcrules.py:compute_maximin_support", "abcvoting/abcrules.py:compute_monroe", "abcvoting/abcrules.py:compute_phragmen_enestroem", "abcvoting/abcrules.py:compute_consensus_rule", "abcvoting/abcrules.py:compute_equal_shares"]}
{"id": "C116", "title": "A losing candidate can leave", "statement": "If the last candidate is in no winning committee, then compute returns exactly the same winning committees for the profile without this candidate (one candidate less, the candidate deleted from all ballots). In any case every winning committee without this candidate also wins in the profile without it. (By C78 the numbering of the candidates is irrelevant, so this holds for every candidate.)", "quantifier": "every profile (any number of voters and candidates, any approval sets, any positive rational weights), with the last candidate deleted from the ballots, every committee size possible without this candidate, both calls asking for all committees, each with any available algorithm and exact solver; av, pav, slav, cc, geom<b> with b>1, lexcc, seqpav and the other sequential Thiele methods, seqphragmen, minimaxphragmen, maximin-support, monroe, phragmen-enestroem, consensus-rule, equal-shares and its variants; exact arithmetic and exact solvers; weights as in C31: unit weights for lexminimaxav and the Monroe rules, integer weights for ortools-cp and maximin-support (k <= 3162), integer weights of total at most 3162 for minimaxphragmen, supporters of total weight at least 1 for seqphragmen and Equal Shares with Phragmen or increment completion", "why_tests_cant": "Tests run a few fixed profiles; the claim is about all profiles, sizes, weights and tie patterns.", "anchors": ["abcvoting/abcrules.py:compute", "abcvoting/abcrules.py:compute_av", "abcvoting/abcrules.py:compute_thiele_method", "abcvoting/abcrules.py:compute_seq_thiele_method", "abcvoting/abcrules.py:compute_lexcc", "abcvoting/abcrules.py:compute_seqphragmen", "abcvoting/abcrules.py:compute_minimaxphragmen", "abcvoting/abcrules.py:compute_maximin_support", "abcvoting/abcrules.py:compute_monroe", "abcvoting/abcrules.py:compute_phragmen_enestroem", "abcvoting/abcrules.py:compute_consensus_rule", "abcvoting/abcrules.py:compute_equal_shares"]}
{"id": "C117", "title": "Candidate monotonicity and irrelevance of losing candidates for resolute answers", "statement": "With resolute=True, if some voters additionally approve candidate c and c is not in the committee returned with these approvals, then compute returns the same committee with and without them; in particular additional approvals never cost an elected candidate the seat. For sav, and for minimaxav and lexminimaxav by brute force, only the second statement holds: an elected candidate stays elected.", "quantifier": "every profile, every candidate c, every set of voters who add c to their ballots, every committee size, both calls with resolute=True, each with its own environment; av, sav, the Thiele methods by brute force (in both calls) or by branch and bound (in both calls), lexcc, monroe, minimaxav, lexminimaxav by brute force, the sequential Thiele methods, seqphragmen, maximin-support with any exact solver and greedy-monroe (both with sets of candidates iterated in ascending order), phragmen-enestroem, consensus-rule, equal-shares with sequential-Phragmen completion or without completion; exact arithmetic and exact solvers; weights as in C31: unit weights for lexminimaxav and the Monroe rules, integer weights for ortools-cp and maximin-support (k <= 3162), integer weights of total at most 3162 for minimaxphragmen, supporters of total weight at least 1 for seqphragmen and Equal Shares with Phragmen or increment completion", "why_tests_cant": "Tests run a few fixed profiles; the claim is about all profiles, sizes, weights and tie patterns.", "anchors": ["abcvoting/abcrules.py:compute", "abcvoting/abcrules.py:compute_av", "abcvoting/abcrules.py:compute_sav", "abcvoting/abcrules.py:compute_thiele_method", "abcvoting/abcrules.py:compute_seq_thiele_method", "abcvoting/abcrules.py:compute_lexcc", "abcvoting/abcrules.py:compute_seqphragmen", "abcvoting/abcrules.py:compute_maximin_support", "abcvoting/abcrules.py:compute_monroe", "abcvoting/abcrules.py:compute_greedy_monroe", "abcvoting/abcrules.py:compute_phragmen_enestroem", "abcvoting/abcrules.py:compute_consensus_rule", "abcvoting/abcrules.py:compute_equal_shares", "abcvoting/abcrules.py:compute_minimaxav", "abcvoting/abcrules.py:compute_lexminimaxav"]}
{"id": "C118", "title": "With resolute=True only the electorate matters", "statement": "With resolute=True, compute returns the same single committee for two profiles in which every approval set has the same total weight: voters reordered, voters with the same approval set merged into one weighted voter or split. For av, sav, the Thiele methods, lexcc, lexminimaxav, the sequential Thiele methods, seqphragmen, maximin-support and trivial it is enough that every nonempty approval set has the same total weight: voters who approve nobody can be added or removed. So tie-breaking never looks at the order or the number of the voters (as it does for greedy Monroe).", "quantifier": "all pairs of profiles with the same electorate (up to empty ballots), every committee size, both calls with resolute=True, each with its own environment; av, sav, the Thiele methods by brute force (in both calls) or by branch and bound (in both calls), lexcc, monroe, minimaxav, lexminimaxav by brute force, the sequential Thiele methods, seqphragmen, maximin-support with any exact solver (sets of candidates iterated in ascending order), phragmen-enestroem, consensus-rule, equal-shares with sequential-Phragmen completion, with completion by increments or without completion; exact arithmetic and exact solvers; weights as in C31: unit weights for lexminimaxav and the Monroe rules, integer weights for ortools-cp and maximin-support (k <= 3162), integer weights of total at most 3162 for minimaxphragmen, supporters of total weight at least 1 for seqphragmen and Equal Shares with Phragmen or increment completion", "why_tests_cant": "Tests run a few fixed profiles; the claim is about all profiles, sizes, weights and tie patterns.", "anchors": ["abcvoting/abcrules.py:compute", "abcvoting/preferences.py:Profile.convert_to_weighted", "abcvoting/preferences.py:Profile.convert_to_unit_weights", "abcvoting/abcrules.py:compute_av", "abcvoting/abcrules.py:compute_sav", "abcvoting/abcrules.py:compute_thiele_method", "abcvoting/abcrules.py:compute_seq_thiele_method", "abcvoting/abcrules.py:compute_lexcc", "abcvoting/abcrules.py:compute_seqphragmen", "abcvoting/abcrules.py:compute_maximin_support", "abcvoting/abcrules.py:compute_monroe", "abcvoting/abcrules.py:compute_phragmen_enestroem", "abcvoting/abcrules.py:compute_consensus_rule", "abcvoting/abcrules.py:compute_equal_shares", "abcvoting/abcrules.py:compute_minimaxav", "abcvoting/abcrules.py:compute_lexminimaxav"]}
{"id": "C119", "title": "With resolute=True a candidate who is not elected can leave", "statement": "With resolute=True, if the last candidate is not in the committee returned, compute returns the same committee for the profile without this candidate (the candidate is erased from all ballots and the number of candidates is one smaller).", "quantifier": "every profile with n + 1 candidates whose candidate n is not elected, every committee size at most n, both calls with resolute=True, each with its own environment; av, the Thiele methods by brute force (in both calls) or by branch and bound (in both calls), lexcc and monroe by brute force, the sequential Thiele methods, seqphragmen, maximin-support with any exact solver and greedy-monroe (both with sets of candidates iterated in ascending order), phragmen-enestroem, consensus-rule, equal-shares with sequential-Phragmen completion or without completion; exact arithmetic and exact solvers; weights as in C31: unit weights for lexminimaxav and the Monroe rules, integer weights for ortools-cp and maximin-support (k <= 3162), integer weights of total at most 3162 for minimaxphragmen, supporters of total weight at least 1 for seqphragmen and Equal Shares with Phragmen or increment completion", "why_tests_cant": "Tests run a few fixed profiles; the claim is about all profiles, sizes, weights and tie patterns.", "anchors": ["abcvoting/abcrules.py:compute", "abcvoting/abcrules.py:compute_av", "abcvoting/abcrules.py:compute_thiele_method", "abcvoting/abcrules.py:compute_seq_thiele_method", "abcvoting/abcrules.py:compute_lexcc", "abcvoting/abcrules.py:compute_seqphragmen", "abcvoting/abcrules.py:compute_maximin_support", "abcvoting/abcrules.py:compute_monroe", "abcvoting/abcrules.py:compute_greedy_monroe", "abcvoting/abcrules.py:compute_phragmen_enestroem", "abcvoting/abcrules.py:compute_consensus_rule", "abcvoting/abcrules.py:compute_equal_shares"]}
{"id": "C120", "title": "New voters who approve only one candidate, with resolute=True", "statement": "With resolute=True, if new voters (of any weights) are added who approve candidate c and nobody else, and c is not in the committee returned then, compute returns the same committee without these voters; in particular the new voters never cost c the seat. For sav, and for lexminimaxav by brute force, only the second statement holds: an elected candidate stays elected.", "quantifier": "every profile, every candidate c, every list of new voters, every committee size, both calls with resolute=True, each with its own environment; av, sav, the Thiele methods by brute force (in both calls) or by branch and bound (in both calls), lexcc and lexminimaxav by brute force, the sequential Thiele methods, seqphragmen, maximin-support with any exact solver (sets of candidates iterated in ascending order); exact arithmetic and exact solvers; weights as in C31: unit weights for lexminimaxav and the Monroe rules, integer weights for ortools-cp and maximin-support (k <= 3162), integer weights of total at most 3162 for minimaxphragmen, supporters of total weight at least 1 for seqphragmen and Equal Shares with Phragmen or increment completion", "why_tests_cant": "Tests run a few fixed profiles; the claim is about all profiles, sizes, weights and tie patterns.", "anchors": ["abcvoting/abcrules.py:compute", "abcvoting/abcrules.py:compute_av", "abcvoting/abcrules.py:compute_sav", "abcvoting/abcrules.py:compute_thiele_method", "abcvoting/abcrules.py:compute_seq_thiele_method", "abcvoting/abcrules.py:compute_lexcc", "abcvoting/abcrules.py:compute_seqphragmen", "abcvoting/abcrules.py:compute_maximin_support", "abcvoting/abcrules.py:compute_lexminimaxav", "abcvoting/preferences.py:Profile.add_voter"]}
{"id": "C121", "title": "Additional candidates whom nobody approves, with resolute=True", "statement": "With resolute=True, compute returns the same committee if candidates whom nobody approves are added at the end of the list of candidates; none of them is elected, even if there are fewer approved candidates than seats, because ties are broken in favour of smaller numbers. For pav, slav, geom<base> by branch and bound and for lexcc and lexminimaxav by brute force this requires at least as many approved candidates as seats. (Finding: these return the first committee in the order of the printed sets, so candidate 10 precedes candidate 2: with one approved candidate, three seats and eleven candidates pav elects {0, 1, 10} by branch and bound and {0, 1, 2} by brute force.)", "quantifier": "every profile, every number of additional candidates, every committee size, resolute=True; av, sav, the Thiele methods by brute force, pav, slav, geom<base> by branch and bound, lexcc and lexminimaxav by brute force, the sequential Thiele methods, seqphragmen, maximin-support and greedy-monroe (sets of candidates iterated in ascending order), phragmen-enestroem, consensus-rule, Equal Shares without completion and completed by sequential Phragmen, trivial; exact arithmetic and exact solvers; weights as in C31: unit weights for lexminimaxav and the Monroe rules, integer weights for ortools-cp and maximin-support (k <= 3162), integer weights of total at most 3162 for minimaxphragmen, supporters of total weight at least 1 for seqphragmen and Equal Shares with Phragmen or increment completion", "why_tests_cant": "Tests run a few fixed profiles; the claim is about all profiles, sizes, weights and tie patterns.", "anchors": ["abcvoting/abcrules.py:compute", "abcvoting/abcrules.py:compute_av", "abcvoting/abcrules.py:compute_sav", "abcvoting/abcrules.py:compute_thiele_method", "abcvoting/abcrules.py:compute_seq_thiele_method", "abcvoting/abcrules.py:compute_lexcc", "abcvoting/abcrules.py:compute_seqphragmen", "abcvoting/abcrules.py:compute_maximin_support", "abcvoting/abcrules.py:compute_greedy_monroe", "abcvoting/abcrules.py:compute_phragmen_enestroem", "abcvoting/abcrules.py:compute_consensus_rule", "abcvoting/abcrules.py:compute_equal_shares", "abcvoting/abcrules.py:compute_trivial_rule"]}
{"id": "C122", "title": "Voters who approve every candidate do not matter", "statement": "compute returns the same committees for two profiles that differ only by voters who approve every candidate (or nobody), for av, sav, pav, slav, cc, geom<base>, lexcc, the sequential and reverse sequential Thiele methods, lexminimaxav, eph and trivial, whatever algorithms and solvers the two calls use; with resolute=True the same committee, if both calls use the same of the algorithms for which the tie-breaking is determined. (For minimaxav such voters matter.)", "quantifier": "all pairs of profiles in which every approval set other than the empty and the full one has the same total weight, committee sizes, algorithms, arguments; all committees requested in the first call, any number in the second; with resolute=True: av, sav, the Thiele methods by brute force or by branch and bound, lexcc and lexminimaxav by brute force, the sequential Thiele methods, trivial; exact arithmetic and exact solvers; weights as in C31: unit weights for lexminimaxav and the Monroe rules, integer weights for ortools-cp and maximin-support (k <= 3162), integer weights of total at most 3162 for minimaxphragmen, supporters of total weight at least 1 for seqphragmen and Equal Shares with Phragmen or increment completion", "why_tests_cant": "Tests run a few fixed profiles; the claim is about all profiles, sizes, weights and tie patterns.", "anchors": ["abcvoting/abcrules.py:compute", "abcvoting/abcrules.py:compute_separable_rule", "abcvoting/abcrules.py:compute_thiele_method", "abcvoting/abcrules.py:compute_seq_thiele_method", "abcvoting/abcrules.py:compute_revseq_thiele_method", "abcvoting/abcrules.py:compute_lexcc", "abcvoting/abcrules.py:compute_lexminimaxav", "abcvoting/abcrules.py:compute_eph", "abcvoting/abcrules.py:compute_trivial_rule"]}
{"id": "C123", "title": "When different rules elect the same committees", "statement": "seqav and revseqav return exactly the committees of approval voting (those with the largest number of approvals). If nobody approves more than one candidate, then sav, pav, slav, cc, geom<base>, lexcc, the sequential and reverse sequential Thiele methods, seqphragmen, maximin-support, Equal Shares (with seq-Phragmen or AV completion), phragmen-enestroem and consensus-rule also elect exactly the candidates with the most votes. If committeesize is the number of candidates, every rule (except Equal Shares without completion) returns the one committee of all candidates. Every committee returned by lexcc is returned by cc, every committee returned by lexminimaxav is returned by minimaxav; every committee of Equal Shares with seq-Phragmen or AV completion contains a committee of Equal Shares without completion, and each of those is contained in one of the former.", "quantifier": "all profiles (with at most one approval per voter for the second claim), committee sizes, algorithms, arguments (for the last claims: all committees requested); exact arithmetic and exact solvers; weights as in C31: unit weights for lexminimaxav and the Monroe rules, integer weights for ortools-cp and maximin-support (k <= 3162), integer weights of total at most 3162 for minimaxphragmen, supporters of total weight at least 1 for seqphragmen and Equal Shares with Phragmen or increment completion", "why_tests_cant": "Tests run a few fixed profiles; the claim is about all profiles, sizes, weights and tie patterns.", "anchors": ["abcvoting/abcrules.py:compute", "abcvoting/abcrules.py:compute_separable_rule", "abcvoting/abcrules.py:compute_thiele_method", "abcvoting/abcrules.py:compute_seq_thiele_method", "abcvoting/abcrules.py:compute_revseq_thiele_method", "abcvoting/abcrules.py:compute_lexcc", "abcvoting/abcrules.py:compute_cc", "abcvoting/abcrules.py:compute_seqphragmen", "abcvoting/abcrules.py:compute_maximin_support", "abcvoting/abcrules.py:compute_equal_shares", "abcvoting/abcrules.py:compute_phragmen_enestroem", "abcvoting/abcrules.py:compute_consensus_rule", "abcvoting/abcrules.py:compute_lexminimaxav", "abcvoting/abcrules.py:compute_minimaxav"]}
{"id": "C124", "title": "Unapproved candidates and committees of all candidates in the checks", "statement": "check(name, profile, W) returns the same for a profile and for the profile with additional candidates whom nobody approves, for every property, with the default quota and (jr, pjr, ejr, ejr+, fjr, core) with a given quota. A committee of all candidates passes every check.", "quantifier": "every profile (any number of voters and candidates, any approval sets, any positive rational weights), every number of additional candidates, all non-empty committees W of the original candidates, all nine properties, both available algorithms fastest and gurobi (also different ones), with an exact solver; all positive quotas, for ejr+ in the range in which the check is right (C55)", "why_tests_cant": "Tests run a few fixed profiles; the claim is about all profiles, sizes, weights and tie patterns.", "anchors": ["abcvoting/properties.py:check", "abcvoting/properties.py:check_pareto_optimality", "abcvoting/properties.py:check_JR", "abcvoting/properties.py:check_PJR", "abcvoting/properties.py:check_EJR", "abcvoting/properties.py:check_EJR_plus", "abcvoting/properties.py:check_FJR", "abcvoting/properties.py:check_core", "abcvoting/properties.py:check_priceability", "abcvoting/properties.py:check_stable_priceability"]}
{"id": "C125", "title": "Representation beyond the checks: PJR+ and the core up to a factor of two", "statement": "Every committee returned by compute for seqphragmen, maximin-support, phragmen-enestroem, pav and Equal Shares (without completion, completed by seq-Phragmén or by AV), for leximaxphragmen (electorates of moderate size), and for monroe and greedy-monroe if the committee size divides the number of voters, satisfies PJR+: if a group of voters deserves l seats and agrees on a candidate who is not elected, its members together approve at least l members of the committee. For leximax-Phragmén without tolerances the same holds for electorates of every size. Every committee returned for pav is in the core up to a factor of two: no group that deserves |T| seats has, for each of its members, more than twice as many approved candidates in T as in the committee; the factor cannot be dropped.", "quantifier": "every profile (any number of voters and candidates, any approval sets, any positive rational weights), every valid call for these rules with resolute True or False, every committee returned, all groups of voters, all candidates and all sets T of candidates; exact arithmetic and exact solvers; weights as in C31: unit weights for lexminimaxav and the Monroe rules, integer weights for ortools-cp and maximin-support (k <= 3162), integer weights of total at most 3162 for minimaxphragmen, supporters of total weight at least 1 for seqphragmen and Equal Shares with Phragmen or increment completion", "why_tests_cant": "Tests run a few fixed profiles; the claim is about all profiles, sizes, weights and tie patterns.", "anchors": ["abcvoting/abcrules.py:compute_seqphragmen", "abcvoting/abcrules.py:compute_maximin_support", "abcvoting/abcrules.py:compute_pav", "abcvoting/abcrules.py:compute_equal_shares", "abcvoting/abcrules.py:compute_leximaxphragmen"]}
{"id": "C126", "title": "Sequential Phragmén: average satisfaction of groups", "statement": "For every committee returned by compute for seqphragmen: if the members of a group of voters agree on a candidate who is not elected, they approve on average at least (l - 1)/2 members of the committee, where l = k * (share of the group) is the number of seats the group deserves. The members of every l-cohesive group approve on average at least (l - 1)/2 members (proportionality degree).", "quantifier": "every profile (any number of voters and candidates, any approval sets, any positive rational weights), every valid call with resolute True or False, every committee returned, all groups of voters (any size) and all l; exact arithmetic and exact solvers; weights as in C31: unit weights for lexminimaxav and the Monroe rules, integer weights for ortools-cp and maximin-support (k <= 3162), integer weights of total at most 3162 for minimaxphragmen, supporters of total weight at least 1 for seqphragmen and Equal Shares with Phragmen or increment completion", "why_tests_cant": "Tests run a few fixed profiles; the claim is about all profiles, sizes, weights and tie patterns.", "anchors": ["abcvoting/abcrules.py:compute_seqphragmen"]}
{"id": "C127", "title": "Representation and welfare guarantees", "statement": "Call a voter represented if she approves a member of the committee. Every committee returned by compute for pav, seqphragmen, maximin-support and Equal Shares (completed by seq-Phragmén) represents at least half as many voters (by weight) as every other committee of the same size, as does every priceable committee; those returned for cc represent as many as possible, those for seqcc at least the fraction 1 - (1 - 1/k)^k (more than 63 percent) of that. The members of every committee returned for pav have in total at least 1/(2 + sqrt(k)) of the approvals that the members of any committee have; committees returned for av have the most approvals and represent at least 1/k of the voters that can be represented, those for cc have at least 1/k of the most approvals.", "quantifier": "every profile (any number of voters and candidates, any approval sets, any positive rational weights), every valid call for these rules with resolute True or False, every committee returned, compared with every committee of the same size; exact arithmetic and exact solvers; weights as in C31: unit weights for lexminimaxav and the Monroe rules, integer weights for ortools-cp and maximin-support (k <= 3162), integer weights of total at most 3162 for minimaxphragmen, supporters of total weight at least 1 for seqphragmen and Equal Shares with Phragmen or increment completion", "why_tests_cant": "Tests run a few fixed profiles; the claim is about all profiles, sizes, weights and tie patterns.", "anchors": ["abcvoting/abcrules.py:compute_pav", "abcvoting/abcrules.py:compute_seqphragmen", "abcvoting/abcrules.py:compute_maximin_support", "abcvoting/abcrules.py:compute_equal_shares", "abcvoting/abcrules.py:compute_cc", "abcvoting/abcrules.py:compute_seqcc", "abcvoting/abcrules.py:compute_av"]}
{"id": "C128", "title": "Guarantees for the Droop quota", "statement": "Groups do not need the Hare quota (total weight/k): every committee returned by compute has the following properties for EVERY quota above 1/(k+1) of the total weight (so for the Droop quota, too): JR, PJR, EJR and EJR+ for pav; JR for cc and seqcc; JR and PJR for seqphragmen, maximin-support and Equal Shares (completed by seq-Phragmén). So check(..., quota=q) returns True for all these quotas (for EJR+ for those in the range where the code is right, see C55). This needs full committees: Equal Shares without completion, although it satisfies EJR+ with the Hare quota, violates even JR with the Droop quota on concrete instances.", "quantifier": "every profile (any number of voters and candidates, any approval sets, any positive rational weights), a committee size k, every quota q with total weight < (k+1)·q, and every committee returned by one of the named rules; exact arithmetic and exact solvers; weights as in C31: unit weights for lexminimaxav and the Monroe rules, integer weights for ortools-cp and maximin-support (k <= 3162), integer weights of total at most 3162 for minimaxphragmen, supporters of total weight at least 1 for seqphragmen and Equal Shares with Phragmen or increment completion", "why_tests_cant": "Tests run a few fixed profiles; the claim is about all profiles, sizes, weights and tie patterns.", "anchors": ["abcvoting/abcrules.py:compute_pav", "abcvoting/abcrules.py:compute_cc", "abcvoting/abcrules.py:compute_seqcc", "abcvoting/abcrules.py:compute_seqphragmen", "abcvoting/abcrules.py:compute_maximin_support", "abcvoting/abcrules.py:compute_equal_shares", "abcvoting/preferences.py:check"]}
{"id": "C129", "title": "Voters never lose by taking part in the election", "statement": "Let additional voters, all with the same ballot A, join an electorate. For av, sav, pav, slav, lexcc and geom<base> (base above 1): every committee returned by compute afterwards contains at least as many candidates of A as every committee returned before, however ties are broken; and if A contains all members of a committee that won before, it still wins, and every committee that wins now won before and is contained in A, too. For cc: if they were represented before, they are afterwards. For minimaxav: a committee that won before still wins, or every committee that wins now contains more candidates of A. Under seqpav and seqphragmen voting can harm the voters on concrete instances.", "quantifier": "every profile (any number of voters and candidates, any approval sets, any positive rational weights), every profile obtained from it by adding voters with one common ballot (with any weights, anywhere in the list), every committee size and every committee returned before and after by one of these rules; exact arithmetic and exact solvers; weights as in C31: unit weights for lexminimaxav and the Monroe rules, integer weights for ortools-cp and maximin-support (k <= 3162), integer weights of total at most 3162 for minimaxphragmen, supporters of total weight at least 1 for seqphragmen and Equal Shares with Phragmen or increment completion", "why_tests_cant": "Tests run a few fixed profiles; the claim is about all profiles, sizes, weights and tie patterns.", "anchors": ["abcvoting/abcrules.py:compute_av", "abcvoting/abcrules.py:compute_sav", "abcvoting/abcrules.py:compute_pav", "abcvoting/abcrules.py:compute_slav", "abcvoting/abcrules.py:compute_cc", "abcvoting/abcrules.py:compute_lexcc", "abcvoting/abcrules.py:compute_minimaxav"]}
{"id": "C130", "title": "Maximin support: at least half of the best possible smallest support", "statement": "Distribute the weight of every voter among the approved members of a committee; the support of a member is the weight given to it. If for some committee of size k a distribution gives every member support at least t, then for every committee returned by compute for maximin-support with committee size k some distribution gives every member support at least t/2 (integer weights and k up to 3162; for all other weights and sizes up to k times the tolerance 1e-7 of the code). AV does not guarantee that on concrete instances.", "quantifier": "every profile (any number of voters and candidates, any approval sets, any positive rational weights), a committee size k, every committee of size k it is compared with, every t, and every committee returned; exact arithmetic and exact solvers; weights as in C31: unit weights for lexminimaxav and the Monroe rules, integer weights for ortools-cp and maximin-support (k <= 3162), integer weights of total at most 3162 for minimaxphragmen, supporters of total weight at least 1 for seqphragmen and Equal Shares with Phragmen or increment completion", "why_tests_cant": "Tests run a few fixed profiles; the claim is about all profiles, sizes, weights and tie patterns.", "anchors": ["abcvoting/abcrules.py:compute_maximin_support"]}
{"id": "C131", "title": "Rankings: every top part of the order of election is proportional", "statement": "The members of every committee returned by compute for seqcc, seqphragmen and maximin-support can be ranked such that, for every j up to the committee size, the first j members are, as a committee of size j, proportional: JR (seqcc), JR, PJR and priceability (seqphragmen with exact numbers, maximin-support with integer weights and k up to 3162), for every quota above 1/(j+1) of the voters, and check says so. The members of a committee returned by a sequential Thiele method can be ranked such that the first j have at least 1-(1-1/j)^j of the score of every committee of size j; for maximin-support, at least half of the smallest support of every committee of size j.", "quantifier": "every profile (any number of voters and candidates, any approval sets, any positive rational weights), a committee returned by the rule, every j up to the committee size, every quota and every committee of size j it is compared with; exact arithmetic and exact solvers; weights as in C31: unit weights for lexminimaxav and the Monroe rules, integer weights for ortools-cp and maximin-support (k <= 3162), integer weights of total at most 3162 for minimaxphragmen, supporters of total weight at least 1 for seqphragmen and Equal Shares with Phragmen or increment completion", "why_tests_cant": "Tests run a few fixed profiles; the claim is about all profiles, sizes, weights and tie patterns.", "anchors": ["abcvoting/abcrules.py:compute_seqcc", "abcvoting/abcrules.py:compute_seqphragmen", "abcvoting/abcrules.py:compute_maximin_support", "abcvoting/abcrules.py:compute_seqpav", "abcvoting/preferences.py:check"]}
{"id": "C132", "title": "Symmetries and candidates with the same supporters", "statement": "compute(rule_id, resolute=False) respects the symmetries of the profile: if a permutation of candidates and voters leaves the profile unchanged, the image of every returned committee is returned, too. In particular, if candidates c and d are approved by the same voters, then with every returned committee that contains d but not c also the one with c in place of d is returned (every rule and algorithm except greedy-monroe, rsd and equal-shares-with-increment-completion, which prefer small indices). check gives the same answer for symmetric committees. With resolute=True, av, sav, the brute-force Thiele methods, sequential Thiele methods, seqphragmen, maximin-support, greedy-monroe, phragmen-enestroem, consensus-rule and Equal Shares (without completion, with Phragmen or with increment completion) elect of several candidates with the same supporters those with smaller index.", "quantifier": "every profile (any number of voters and candidates, any approval sets, any positive rational weights), all permutations of candidates and voters that leave it unchanged, all pairs of candidates with the same supporters, all committee sizes, every rule and algorithm named, all nine properties; exact arithmetic and exact solvers; weights as in C31: unit weights for lexminimaxav and the Monroe rules, integer weights for ortools-cp and maximin-support (k <= 3162), integer weights of total at most 3162 for minimaxphragmen, supporters of total weight at least 1 for seqphragmen and Equal Shares with Phragmen or increment completion", "why_tests_cant": "Tests run a few fixed profiles; the claim is about all profiles, sizes, weights and tie patterns.", "anchors": ["abcvoting/abcrules.py:compute", "abcvoting/preferences.py:check"]}
{"id": "C133", "title": "Separate parts of an electorate do not influence whom the others elect", "statement": "If nobody approves both a candidate in C and a candidate outside of C, then the members in C of every committee returned by compute for av, sav, pav, slav, geom, cc, lexcc, lexminimaxav, a sequential Thiele rule or seqphragmen form a committee that compute returns for the same rule (resolute=False) in the profile of those voters who approve only candidates in C, with committee size the number of these members (if there are any): the other voters influence how many seats the part gets, but not who gets them. The same holds for Equal Shares without completion if the part is to fill exactly the number of seats it is entitled to in proportion to its weight. The two calls may use different algorithms and solvers.", "quantifier": "every profile (any number of voters and candidates, any approval sets, any positive rational weights), every set C of candidates separated from the others, every committee size, every committee returned; exact arithmetic and exact solvers; weights as in C31: unit weights for lexminimaxav and the Monroe rules, integer weights for ortools-cp and maximin-support (k <= 3162), integer weights of total at most 3162 for minimaxphragmen, supporters of total weight at least 1 for seqphragmen and Equal Shares with Phragmen or increment completion", "why_tests_cant": "Tests run a few fixed profiles; the claim is about all profiles, sizes, weights and tie patterns.", "anchors": ["abcvoting/abcrules.py:compute"]}
{"id": "C134", "title": "Number of seats of a party within an arbitrary electorate", "statement": "In every committee returned by compute for Equal Shares without completion, the share of the seats that go to candidates in a set C is at most the share of the voters (by weight) who approve some candidate in C (upper quota). If a group of voters approves exactly the candidates in C and nobody else approves any of them (a party), it gets exactly its share of the seats rounded down, or all of its candidates, whatever the other voters do. Under pav, seqphragmen, maximin-support and Equal Shares completed by seq-Phragmén, voters with the same ballot C who are more than l/(k+1) of the electorate get at least l seats if C has at least l candidates. PAV can exceed the upper quota on concrete instances.", "quantifier": "every profile (any number of voters and candidates, any approval sets, any positive rational weights), every set C of candidates, every group of voters, every committee size k, every l, every committee returned; exact arithmetic and exact solvers; weights as in C31: unit weights for lexminimaxav and the Monroe rules, integer weights for ortools-cp and maximin-support (k <= 3162), integer weights of total at most 3162 for minimaxphragmen, supporters of total weight at least 1 for seqphragmen and Equal Shares with Phragmen or increment completion", "why_tests_cant": "Tests run a few fixed profiles; the claim is about all profiles, sizes, weights and tie patterns.", "anchors": ["abcvoting/abcrules.py:compute"]}
