# Formal model of abcvoting in Lean 4 — design

## 1. Modelling conventions

* Numbers: Python `int`/`Fraction`/`mpq` are modelled by `ℚ` (exact).  The algorithm `"float-fractions"` is
  modelled separately (`Model/Float`: the code over an arbitrary arithmetic; `Model/PyNum`: Python's ints, Fractions and rounded
  floats).  The separable rules with Python's numbers are modelled in `Model/FloatSav` (C96); C20 and all other theorems
  about SAV read `voter.weight / len(voter.approved)` exactly, i.e. for weights stored as Fractions.  Solver output is read in exact arithmetic.
* Candidates: `Nat`.  Python sets of candidates: `List Nat` *with an arbitrary iteration order*; theorems quantify over all
  duplicate-free lists, hence over every hash order.  Specifications use `Finset Nat`.
* A voter: `approved : List Nat`, `weight : ℚ`.  A profile: `numCand : Nat`, `voters : List Voter`, `candNames : List String`.
  `Profile.WF` (positive `numCand`, nodup approvals `< numCand`, positive weights) is an invariant of all API histories (C02).
* Exceptions are values: `Except Err α`.  `list[i]`, `min([])`, division by zero, `set.remove` ... yield the Python error.
* `for` loops: `foldl`/`foldlM`/structural recursion.  `while` loops: recursion on fuel with the explicit error
  `Err.outOfFuel`; theorems prove that error is never returned with the fuel the model supplies (termination).
* External components are parameters: ILP solver, maximum matching / min-cost flow (networkx), random shuffle and sample,
  YAML text serialisation, PrefLib parser, prefsampling samplers.  Their assumed contract is an explicit hypothesis.
* Printing (`output.*`) has no influence on results and is modelled only for C65; the parts of the
  "optional output" blocks that can *raise* (e.g. `remaining_voters.pop()`, `committees[0]`) are modelled.

Layout: `lean/Verif/Model/*` (code, each definition cites file:lines), `lean/Verif/Spec/*` (independent specification),
`lean/Verif/Lemmas/*` (helper proofs), `lean/Verif/Props/*` (property theorems and non-vacuity examples).

## 2. Trusted base

* Lean 4.33.0 kernel; axioms `propext`, `Classical.choice`, `Quot.sound` only (checked with `#print axioms` over all theorems of
  MANIFEST.json; no axioms of our own, no compiled evaluation).
* The faithfulness of the hand-written definitions in `lean/Verif/Model` to `/repo` (each cites file and lines and names its
  simplifications).
* The contracts of the external components, which are explicit hypotheses of the theorems that need them (each is shown to be
  satisfiable by an explicit or constructed instance):
  - `ExactSolver`, `ExactMaxSolver` (Gurobi, python-mip, OR-Tools CP-SAT): returns *infeasible* iff the program has no solution and otherwise an
    optimal solution, in exact arithmetic.  The tolerances abcvoting itself adds (`ACCURACY`, `CMP_ACCURACY`, the `isclose` calls) are modelled.  C81 and C83 weaken this: solvers may give up, and may be inexact up to tolerances (except for the load-based rules).
    Which optimum is returned is arbitrary.
  - `ExactMatching`, `ExactMinCost` (networkx maximum matching / min-cost flow).
  - random shuffle and sample: arbitrary permutations/sublists, universally quantified.
  - iteration order of Python sets and dictionaries keyed by sets: arbitrary parameters, universally quantified.
  - `YamlFaithful` (ruamel.yaml) and `PrefFaithful` (preflibtools): reading returns what was written.
* Floating point.  `float-fractions` is a parameter `float` of the dispatcher; theorems in exact arithmetic exclude it, C75 (and C76)
  instantiate it with the model of `Model/Float`.  Floats are doubles with unbounded exponents: 53 significant bits, round to nearest,
  ties to even, no overflow/NaN, no subnormal numbers (`Model/PyNum`).  `int/int` is correctly rounded, mixed operations convert first, as in
  CPython.  A quota given to a check is exact in C51-C60 and of any type in C100.  Weights of equal value are stored in the same type (int, Fraction or float; otherwise arbitrary).  The built-in `sum` is a
  parameter with the contract `SumSound` (integer bounds and signs are respected), proved for the plain running total of Python ≤ 3.11; for
  the compensated summation of Python ≥ 3.12 it is an assumption.  C76 also uses `SumAccurate` (at most two relative errors of 2^-53 per
  summand for summands ≥ 0), again proved for the running total.  The SAV quotient is exact for Fraction
  weights only (C96: what holds for int weights).  Solver output is read in exact arithmetic.

### 2.1 What is modelled

| file | modelled | not modelled |
|---|---|---|
| `preferences.py` | everything, including `Profile.__str__` and `str_compact` (formatting of numbers is a parameter; the description written by C63 is a parameter there); object identity and aliasing: C95 | |
| `misc.py` | `CandidateSet`, `sorted_committees`, `str_set_of_candidates`, `hamming`, `powerset`, `compare_list_of_committees`, `verify_expected_...`, `dominate`, `binom`, `header`, `str_sets_of_candidates`, `str_committees_with_header` | `time_it` (timing) |
| `scores.py` | everything | |
| `abcrules.py` | the rule table, `Rule`, `get_rule`, `compute`, parameter checks, algorithm selection, all `compute_*` functions and their algorithms, all "optional output" blocks (C85-C92) with the `detailed_info` they use | the text of a number (`str` of ints that are not indices, fractions and floats: a parameter); `detailed_info` of algorithms whose blocks do not use it |
| `abcrules_gurobi.py`, `abcrules_mip.py`, `abcrules_ortools.py` | the programs (variables, constraints, objectives), the enumeration loops `_optimize_rule_*`, the lexicographic loops | solver parameters, `threads`; `solver_id` selects an abstract solver |
| `properties.py` | `check`, `full_analysis`, all brute-force checkers, the programs of all Gurobi checkers, all printed texts (C93) | the text of a number (a parameter) |
| `fileio.py` | everything between the file libraries and `Profile` | ruamel.yaml, preflibtools |
| `output.py` | everything | `textwrap.fill` (a parameter) |
| `generate.py` | everything between the caller and the samplers: dispatch on the id, binding of keyword arguments, the sampler call, construction of the profile, point distributions | prefsampling (samplers and `sample_election_positions` are parameters), floating-point division `setsize / num_cand` (exact here) |

Simplifications common to all: voters are identified by their position (Python: by object identity; `Profile` guarantees distinct objects, proved in C95);
values have their documented types (TypeErrors for other types do not occur); `committeesize` is an integer.

### 2.2 Reading guide for the specification

`Spec/Basic` (committees, utilities, canonical order, `Answers`: what a call with given `resolute` and `max_num_of_committees` has to return for a
set of winning committees), `Spec/Rules` (optimisation rules), `Spec/Sequential`, `Spec/Run` (round-based rules), `Spec/Budgets`,
`Spec/EqualShares`, `Spec/Monroe`, `Spec/Other`, `Spec/Loads` (Phragmén), `Spec/Prices`, `Spec/Axioms` (JR ... core, priceability),
`Spec/ILP` (what a solver is), `Spec/Electorate` (renaming, weights), `Spec/Dispatch` (which set of committees every rule id of `compute`
has to return), `Spec/FileIO`.

## 3. Defects found in the code (each confirmed in the model by a theorem)

1. `branch-and-bound` assumes a non-increasing marginal function; `geomX` with `X < 1` is accepted and then fails: `C22_geom_below_one_fails`.
2. `_seqphragmen_*`: the sentinels `committeesize+1`, `committeesize+2` are only large enough if every approved candidate has approver weight
   >= 1; with smaller weights an elected candidate is elected again (`ValueError`): `C33_small_weights_fail`.
3. Increment completion of Equal Shares raises `RuntimeError("Critical bug ...")` for small weights: `C39_small_weights_fail`.
4. `compute_eph` raises `IndexError` for profiles with one candidate: `C44_single_candidate`.
5. The brute-force EJR and PJR checks count voters instead of weights: `C53_weighted_fails`, `C54_weighted_fails`.
6. The `cohesive_group` they report is the set of all under-represented voters, not a cohesive group: `C59_EJR_group_wrong`.
7. `_check_EJR_plus` raises `KeyError` for large quotas: `C55_large_quota_KeyError`.
8. `Profile.copy` drops the candidate names: `C05_copy_drops_names`.
9. `minimaxphragmen`, `leximaxphragmen`: with too few approved candidates `max_num_of_committees` is ignored: `C67_few_ignores_max`.
10. `full_analysis` does not restore the verbosity if a check raises: `C65_full_analysis_raises`, `C65_full_analysis_bad_committee`.
11. `write_profile_to_preflib_cat_file` replaces fractional weights by 1: `C64_fractional_weights_lost`.
12. `_revseq_thiele_irresolute`: dictionary keys are tuples in set iteration order; the same committee can be reported twice: `C28_duplicates`.
13. `seqav`, `revseqav` ("equivalent to AV") are accepted by `compute` although the documentation excludes them: `C19_seqav_accepted`.
14. Compute instances read from a yaml file without committee size cannot be written again (`int(None)`): `C63_rewrite_fails`.
15. `read_preflib_file` accepts `top_ranks=0` and `setsize=0` and then returns empty approval sets: `C71_zero_accepted`.
16. `minimaxphragmen`: loads are bounded by 1 in the program, which makes it infeasible for weights < 1: `C67_small_weights_error`.
17. `leximaxphragmen`: the rounding tolerance can make a non-optimal committee win: `C70_tolerance_finding`; the lexicographic tie-breaking of the
    "lexicographic" variant orders by printed strings: `C70_lexicographic_finding`.
18. Greedy Monroe depends on the order of the voters: `C49_greedy_monroe_not_anonymous`.
19. ILP algorithms reject `geomX` with `X <= 1`, which the other algorithms accept: `C62_ilp_thiele_rejects`.
20. Docstrings of the Euclidean generators say that `voter_points`/`candidate_points` are only used if the corresponding distribution is `None`; in fact they have precedence over it: `C74_points_precedence`.
21. `float-fractions` (the default algorithm of most of these rules) compares loads with `isclose(rel_tol=1e-12, abs_tol=1e-12)`; loads are of the order 1/weight, so with large weights everything is tied: with weights 2·10¹² and 4·10¹² seq-Phragmén elects the candidate with half the support: `C76_large_weights`.
22. Equal Shares with increment completion stops as soon as `committeesize` candidates are bought with inflated budgets and can violate even JR (three voters, committee size 3): `C37_increment_not_JR`.
23. `compute("rule-x", …, skip_phragmen_phase=True)` raises `TypeError`: the id is bound to `compute_equal_shares`, which does not know the keyword of `compute_rule_x` (`C82_type_error`).
24. Weights (or PAV scores with large committees) that differ by less than the solver tolerance can make a Thiele method with an ILP back end elect a non-winning committee (`C83_gap_needed`); it is then still optimal up to the tolerance (`C83_thiele_near`).
25. `Profile.str_compact` groups voters by `tuple(approved)`, i.e. by the iteration order of the set, which in CPython depends on the insertion order (`{0, 8}` iterates as 0, 8 or 8, 0): the same approval set can be listed twice with partial weights (`C84_compact_twice`).
26. A logger attached to `output` never receives the protocol (level DETAILS) of a sequential Thiele rule if the *printing* verbosity is above DETAILS, because the block is guarded by `output.verbosity <= DETAILS` (`C85_seq_log`).
27. The protocol of reverse sequential rules stores `tied_cands = cands_to_remove[:-1]`, without the removed candidate, but still requires `len(...) > 1`: ties between two candidates are not reported (`C85_revseq_two_way_tie`).  The text says "PAV-score" for all score functions.
28. seq-Phragmén prints "maximum load increased to k+1" when it elects a candidate nobody approves, although no load changes (`C87_max_load`).
29. Equal Shares prints the loads with which phase 2 starts as "starting loads (= budget spent)" (abcrules.py:3187-3190), but the values are minus the remaining budget per unit of weight (never positive), not the budget spent (`C88_starting_loads`).
30. `compute_lexminimaxav` prints the lists of distances of several winning committees one directly after the other (`[0, 2][2, 0]`, abcrules.py:2332-2335; Minimax AV prints one per line) (`C90_lexminimaxav_report`).
31. `compute_leximaxphragmen` overwrites `resolute` when `lexicographic_tiebreaking=True`, so the remark "Computing only one winning committee" is not printed in these (necessarily resolute) calls (`C90_leximax_remark`).
32. `compute_maximin_support` prints "tie broken in favor of 2," with the number of the candidate, not its name (abcrules.py:3805; the same in the sequential Thiele rules), next to the names of the tied candidates (`C91_maximin_protocol`).
33. `check_EJR`/`check_PJR` with `algorithm="brute-force"` print all voters approving fewer than ℓ members as "the ℓ-cohesive group", not the cohesive group found, so the explanation can be false (`C93_brute_force_wrong`: four voters are said to jointly approve a candidate two of them do not approve). Also: `check_FJR`'s explanation lacks the spaces between its parts; with no voters and the empty committee the computation of the column widths in `_check_priceability_gurobi` raises ValueError (`max()` of an empty sequence).
34. Weights stored as floats (e.g. `weight=0.5`): Equal Shares with increment completion raises `TypeError` with every algorithm, because `Fraction(int, float)` is not defined (abcrules.py:3471): `C75_float_weights_increment_fails`. (C39 is about ints and Fractions.)
35. Equal Shares with floats: `isclose` compares prices with an absolute tolerance of 1e-12 (abcrules.py, `_equal_shares_algorithm`), so for large weights all prices count as tied; a candidate that costs its supporters twice as much is bought first and the committees have different sizes: `C94_large_weights`.
36. `P.add_voters(P)` never terminates if P has a voter: the `for` loop runs over the list that `add_voter` extends (preferences.py:134-135): `C95_add_itself`.
37. SAV with int weights (the default) is computed with floats and compared with `==` (abcrules.py:1919, 1927-1930): the five voters {0},{0},{1},{1},{0,1,2} with k=1 give [[0],[1]], but {0},{0},{1},{0,1,2},{1} gives [[0]] and {0},{1},{1},{0,1,2},{0} gives [[1]], so the result depends on the order of the voters: `C96_order_of_voters`; ties are lost: `C96_lost_tie`.  Weights stored as Fractions avoid this (`C96_fraction_weights`).
38. A Hare quota computed as a float may be larger than the exact one (9/7 for nine voters and seven seats; also 18/7, 25/11): `int(total/quota)` is then too small, `check_EJR` reports no violation although the default quota `Fraction(9, 7)` gives one, and `check_EJR_plus` raises `KeyError`: `C100_float_hare_quota`.
39. With 'float-fractions' phragmen-enestroem and consensus-rule consider supports tied whose relative difference is below 1e-12: with weights 10^13 and 10^13+1 the candidate of smaller support is elected (`C104_large_weights`).
40. Committees are sorted by their printed form, so with 11 or more candidates {10} precedes {2}: on the same profile PAV with resolute=True returns {2} with algorithm='brute-force' but {10} with 'branch-and-bound', and the first committee of the irresolute list is {10} (`C105_string_order`).
41. minimaxphragmen (irresolute) returns committees that violate JR when the largest load cannot be reduced (six voters, three seats: C77_minimaxphragmen_finding); leximaxphragmen does not (C77).

## 4. Plan per property

| id | modelled | proof idea |
|---|---|---|
| C01 | `CandidateSet.__init__` over integer lists | case split on the guards |
| C02 | state machine of Profile operations with errors | invariant by induction over the operation list |
| C03/C04 | conversions | weight-per-approval-set function preserved (induction over voters) |
| C05 | `copy` | equality of voters; negation for names |
| C06 | `is_party_list` | set algebra |
| C07 | `str_set_of_candidates`, `sorted_committees` (merge sort by string key) | permutation + sortedness + injectivity of the key |
| C08–C12 | misc functions | direct |
| C13–C16 | scores | induction over voters |
| C17 | graph of the matching / flow network; optimum of an exact matching/flow is a parameter | translate assignments <-> matchings/flows |
| C18 | folds | direct |
| C19 | rule table + `verify_compute_parameters` | decision logic |
| C20 | `_separable_rule_algorithm` | exchange argument for top-k sets |
| C21–C26 | brute-force loops | generic arg-max fold lemma; C22: bound admissible for non-increasing f, loop invariant |
| C27,C33,C40,C41,C36 | depth-first "parallel universe" loops | one generic DFS lemma: result = set of leaves; early exit |
| C28 | level-wise dictionary loop | invariant: dictionary = reachable committees |
| C29–C31 | corollaries | |
| C32 | greedy Monroe | loop invariant (disjoint districts, counting) |
| C34 | seq-Phragmén | load argument (total load vs. group load) |
| C35–C39 | equal shares | price function monotone; first-overspending argument for EJR+ |
| C42–C44 | direct | invariants; random choices universally quantified |
| C45 | PAV | averaging over swaps |
| C46 | Thiele monotone in utilities | |
| C47 | CC/seqCC | counting of fresh coverage |
| C48 | sequential rules | runs are prefixes |
| C49, C50 | all scores are symmetric sums / depend on weight per approval set only | |
| C51–C59 | checkers | equivalence with Finset definitions |
| C60–C62 | constraint systems as predicates on assignments, exact solver as hypothesis | encode/decode assignments |
| C63, C64, C71, C72 | readers/writers between the file library and `Profile` | case analysis of the reader; weight per approval set preserved by the writer's dictionary |
| C73, C74 | `random_profile` and the generators, `PointProbabilityDistribution` | every successful call is inverted to the sampler request described in `Spec/Generate`, and every described request succeeds; induction over the samples |
| C65 | output state machine, `full_analysis` | induction over histories; C60 for the values |
| C66 | editing operations of `Profile` | case analysis |
| C67, C68, C70 | Phragmén programs | load distributions <-> Hall-type subset bounds; duality for supports; level-by-level optimisation |
| C69 | price systems | encode/decode payments |
| C75 | "float-fractions" over an arbitrary sound arithmetic, then Python's | rounding is monotone and fixes integers up to 2^53, so integer bounds survive: unelected loads < sentinels, prices ≤ 1, … ; generic DFS lemmas |
| C76 | same as C75; `Accurate`: relative error 2^-53 per rounding, `isclose` decided outside a margin | number of roundings bounded (`Near m`), exact loads are fractions of bounded denominator, hence separated or equal; simulation of runs, and of the depth-first search, by relation |
| C77 | `compute` followed by `check` (both in full) | C31 + C60 + axioms of the rules: price systems read off the runs of seq-Phragmén and Equal Shares, the support of the committee as price (maximin support), payments of a group (Eneström), exchange of a representative (Monroe), full districts (greedy Monroe), dominance increases score vectors (Pareto), relieving a most loaded voter beats the level bounds in spite of the tolerances (leximax-Phragmén) |
| C78 | `compute` on two profiles related by a permutation of candidates and one of voters (`Spec/Renaming.lean`) | every specification (scores, runs with loads or budgets, load distributions, districts, eliminations) is transported along the renaming (`Lemmas/Renaming*.lean`: simulation of runs, bijections of committees, groups, assignments); then C31 on both profiles |
| C79 | `compute` on a profile and the same profile with all weights multiplied | the same transport with a factor: loads are divided by it, budgets and scores multiplied, prices divided; then C31 |
| C80 | `check` on renamed / rescaled profiles | transport of the nine properties (groups, price systems), then C60 |
| C81 | `compute` and `check` with solvers that may answer "neither optimal nor infeasible" on any program | monotonicity of every solver-based algorithm in the solver (`Below`), completion of a sound solver to an exact one, then C31 and C60 |
| C82 | keyword arguments of `compute` special to some rules, `functools.partial` overriding, `compute_rule_x` | case analysis reducing to `compute` with another rule id, then C31 and C70 |
| C83 | solvers with tolerances (`TolerantSolver`), thresholds 0.9 / 1, the enumeration loops, lex-CC and lex-Minimax-AV iterations; statuses in the checks | an exact (or sound) solver is constructed that cannot be distinguished from the tolerant one on programs that encode committees with separated values; loops by induction, then C31/C81; checks depend on statuses only |
| C84 | `str_set_of_candidates`, `str_sets_of_candidates`, `str_committees_with_header`, `header`, `Profile.__str__`, `str_compact`; `str` of numbers is a parameter | the text is split at line breaks (`lines`, a specification function) and each line is compared with the set it shows; the table of `str_compact` by an invariant of the loop |
| C85 | the "optional output" blocks and `detailed_info` of the (reverse) sequential Thiele rules; `str` of numbers is a parameter | the recorded list is computed from the order of election by a recursive function; by induction each recorded round equals the round of the specification (`addProtocol`, `removeProtocol`), using the lemmas of C27/C28 on ties |
| C86 | the output block and `detailed_info` of `compute_separable_rule` | the winning committees are characterised by the threshold (C20); exchange arguments give a winning committee with and without each tied candidate |
| C87 | `compute_seqphragmen` with its `detailed_info` (rounds, the dictionary `committee_load_pairs` of the search) and the whole "optional output" block | induction on the rounds; the search with the dictionary is simulated by the search without it, and every entry is the end of a run |
| C88 | compute_equal_shares including detailed_info and everything it prints (`Model/ReportShares`) | the recorded loop returns the same committees as the silent one; in a resolute call it follows the smallest-index run, so the recorded rounds are the specified protocol; the completion reuses the loop of C87; increments by the argument of C39 |
| C89 | everything `compute_greedy_monroe` prints (`Model/ReportMonroe`) | the completed districts partition the voters (C32), so they define one assignment; its size per member and its overlap with the districts of the run are read off the invariant of C32; the printed optimum is C17 |
| C90 | the "optional output" of the remaining rules except maximin support, with `detailed_info` of lex-CC and lex-MAV (`Model/ReportOptimal`) | the committees are those of C62/C23/C25 and valid, so the texts are defined; the number printed is the score of the first of them, which is optimal; the warning about small scores comes from `min` over the positive values |
| C91 | everything `compute_maximin_support` prints, with its `detailed_info` (`Model/ReportMaximin`) | induction over the recorded loop with the value of the linear program from C68 (max-flow/Hall argument of C67); tolerance removed with the gap between fractions |
| C92 | the dispatch from rule ids to the printing functions (`Model/ReportDispatch`), the terminal of C65 | case analysis over all rules with C31 (result), C85-C91 (texts), C65 (terminal) |
| C93 | `Model/ReportCheck.lean`: the public checks with the messages they print, `_check_priceability_gurobi` with its table, `full_analysis` with its lines; the formatting of numbers is a parameter | The witnesses of C51–C60 and C69 are rewritten as the printed texts (`Spec.Explains`: one constructor per property, with the text and the conditions that make it true); the budget is minimal because the objective is; `full_analysis` by C65 |
| C94 | the float versions of Equal Shares and its completions (`Model/Float`), Python numbers (`Model/PyNum`) | error analysis (`Spec/FloatSigned`, `Lemmas/Signed`): budgets and prices computed with floats stay within a proved distance of the exact ones along the run; budgets are fractions with denominator dividing the product of earlier supporters' weights (`mesRun_denominator`), so different shares are further apart than the tolerance; simulation of the searches (`completionLoop`), then of the Phragmén phase and the increment loop |
| C95 | `Model/Heap.lean`: preferences.py with object identity: a heap of set, voter and profile objects, all operations of C02 plus changes in place | invariant (`HeapInv`: references pairwise different, set objects pairwise different) by induction over histories; every method is `Local` to its profile; refinement: the visible content changes as in `Model/Preferences` |
| C96 | `Model/FloatSav.lean`: `_separable_rule_algorithm` over an arbitrary arithmetic, then Python's numbers | running totals: the score of a candidate is a fold over its approvers, relative error ≤ (3 + 2n) 2^-53; different scores differ by ≥ 1/D; committees that are maximal for scores respecting the strict order of the exact scores are exactly maximal (exchange argument); Fractions: no rounding at all; findings by kernel evaluation |
| C97 | party-list profiles (`isPartyList`), `compute` | `Spec/Apportionment` defines parties, votes, seats and the apportionment methods by exchange inequalities on claims; `Props/Apportionment`: the j-th seat of a party has a non-increasing value, and then global optimum, greedy additions and greedy deletions all yield exactly the exchange-stable committees; the loads of seq-Phragmén are seats/votes, the budgets of Equal Shares (k/total − seats/votes) · weight, those of Eneström the unpaid votes; maximin support (`ApportionmentLoads`): the next candidate of a D’Hondt outcome has the least support; Monroe (`ApportionmentMonroe`): the largest number of represented voters of a balanced assignment is the sum over the parties of min(votes, s · seats), s = n/k (exchange of two voters), a concave function of the seats |
| C98 | two electorates and their union, `compute` | `Spec/Changes.Merged`, `Consistent`; the scores of the union are the sums of the scores, so optima with a common element combine (`Props/Consistency`); for lexcc the vectors are compared lexicographically and added |
| C99 | a profile before and after additional approvals of one candidate, `compute` | `Spec/Changes.MoreApprovals`, `StillElected`; `Props/CandidateMonotonicity`: for the optimising rules committees with `c` do not lose and the others do not gain; for the sequential rules the runs agree until `c` is elected, which happens no later than before (for seq-Phragmén the new load of `c` is an average with loads that are not larger). `Props/MonotoneRounds`: a general relation between the rounds before and after (`Favours`), instantiated for maximin support, Phragmén-Eneström, consensus rule, greedy Monroe, Equal Shares (with more supporters `c` is not more expensive; its completions start from the same situation) ; minimax-Phragmén by comparing load distributions |
| C100 | `Model/FloatQuota.lean`: the checks with quotas of type int, Fraction or float (bound `int(total / quota)`, thresholds `ell * quota` in Python's arithmetic) | the thresholds and the bound are within a relative error of 2^-52; rounding is monotone and fixes integers up to 2^53, so with integer weights no violation is missed (`Thresholds`); the loops are those of C51-C57, C60 |
| C101 | `compute` (C31); `Spec/Dominance.lean`: candidates compared by their sets of supporters | from Pareto optimality, or by exchanging d for c in the definitions of the rules; sequential rules by induction over the rounds: c has the larger marginal contribution whenever d has |
| C102 | as C101, for more rules | unapproved candidates have marginal score 0, infinite load, support 0 or no price; the rules stop or complete only then |
| C103 | `compute` (C31) for two profiles; `Spec/Ballots.lean` | all quantities in the definitions of the rules are sums of weight times a function of the ballot; simulation of runs with loads and budgets that are functions of the ballot; Hall-type characterisation of loads and supports (C67) |
| C104 | the float versions of Phragmén-Eneström and the consensus rule (`Model/Float`) | absolute errors of all budgets added up: grow by a constant per round (consensus rule), or at most double per round plus a constant (Eneström: the kept part of the budgets is a Lipschitz function of support and price); exact budgets are fractions of bounded denominator; simulation of the depth-first search |
| C105 | the separable algorithm, brute force and branch-and-bound with `resolute` and `max_num_of_committees`; `sorted_committees` with its string order | `combinations` enumerates lexicographically; the resolute brute force keeps the first strict optimum; all other algorithms cut a prefix of the sorted complete list |
| C106 | AV on two profiles that differ in one ballot (`OtherBallot`) | if the voter gained, two candidates x (approved, gained) and y (not approved, lost) would have to change places although x lost and y won approvals against the sincere ballot: contradicts the priority order of `C105_priority` |
| C107 | all rules through `compute`; perfect representation for Monroe and the load-balancing rules | C102 for most rules; invariants of the runs (Eneström budgets w(1-t/k), consensus budgets 0, unassigned voters left) and exchange arguments (Monroe, minimax AV) for the others; perfect representation from the Hall condition of minimal loads by Hall's marriage theorem |
| C108 | `compute` for the sequential Thiele methods, `score` | C31 gives a run in which every step has the largest gain; submodularity (score_union_le) bounds the missing score by k gains; induction over the run; 1-1/k ≤ exp(-1/k) |
| C109 | `compute` for PAV and Equal Shares | PAV: no exchange improves the score, so (k+1)·gain ≤ total weight, and Cauchy-Schwarz bounds the gain below by the average; Equal Shares: sum EJR+ over all thresholds |
| C110 | `compute` for all rules with committee size 1 | every rule's winning condition (C31) is shown equivalent to largest approval weight: one-step runs, one-member committees, loads and supports by C67, first purchase of Equal Shares computed explicitly |
| C111 | `compute` for two profiles with the same ballots and different numbers of candidates | all winners of the larger election are approved candidates (C102), hence committees of the smaller one; optimal values agree because an optimum of the larger election lies in the smaller; runs are transferred step by step; reverse runs pass through the set of approved candidates |
| C112 | `compute` before and after adding voters with ballot {c} | `Spec/Supporters`; the new voters first approve nobody, which changes nothing (C103), then they approve `c` (C99); reverse sequential rules (the loss of `c` grows, the other losses do not change, so the runs agree until `c` would be removed) and minimax-AV directly |
| C113 | `check` with two quotas and two committees | C55, C60, and monotonicity of the axioms |
| C114 | `check` for two profiles with the same ballots (`Spec/Electorate`, `Spec/Ballots`) | C60; a group of voters is replaced by all voters of the other profile with the same ballots; payments are spread over the voters with the same ballot in proportion to their weight |
| C115 | `compute` before and after additional approvals for `c` (`Spec/LosingCandidate`) | committees without `c` keep their value, the others gain (optimising rules); the rounds agree until `c` could be elected (`Favours`, rules electing one candidate after the other); new voters first approve nobody (C103); C31 |
| C116 | `compute` with and without the last candidate (`Spec/LosingCandidate`) | first nobody approves the candidate (C115), then the unapproved candidate leaves: committees without it keep their value and rounds without it stay possible; C31 |
| C117 | `compute(resolute=True)` before and after additional approvals for one candidate (`Spec/Resolute`) | first committees: an optimal committee without the candidate stays optimal and precedes the others (C105); first runs (smallest-index ties, C27, C32, C33, C38, C40, C41, C68): a run that does not elect the candidate is the same run before |
| C118 | `compute(resolute=True)` on two profiles with the same electorate (`Spec/Resolute`) | first committees: the same optimal committees (C103), one first in the order (C105); first runs: bisimulation of smallest-index runs (loads, budgets related as in C103) |
| C119 | `compute(resolute=True)` on a profile and the same profile without its last candidate | via the profile in which the candidate stays without approvals: first runs/first committees that avoid the candidate are the same (as C113, C116); then C117 |
| C120 | `compute(resolute=True)` before and after new voters with ballot {c} are added | the new voters first come with empty ballots (C118), then approve c (C117) |
| C121 | `compute(resolute=True)` for a profile with and without additional candidates nobody approves | one candidate at a time: C119's comparison, and the new candidate is not elected because an older one is as good (lexicographic order, runs) |
| C122 | `compute` for two profiles that differ by voters who approve all or no candidates | such voters add the same constant to the score of every committee of a given size, to every gain and loss, every entry of a coverage vector and every number of voters within a distance; so the same committees are optimal and the same runs exist |
| C123 | `compute` for different rules on one profile | scores that are sums over the members make optimal, sequential and reverse sequential committees the sets of top candidates; single votes are party lists with one candidate each; the other relations follow from the definitions of the winners |
| C124 | `check` for a profile with additional unapproved candidates; `check` for the committee of all candidates | every property depends only on the ballots; for Pareto optimality unapproved members of a dominating committee are replaced by other candidates, price systems pay nothing for unapproved candidates; for the committee of all candidates the definitions hold trivially, with equal shares as price system |
| C125 | committees of rules with priceable or EJR+ outcomes; groups agreeing on one unelected candidate; PAV and deviations of groups | the arguments for PJR (price systems, budgets, districts, loads) use one unelected candidate only; for PAV: no candidate would add more than total/(k+1) to the score, while the candidates of a deviation would add at least the weight of the group |
| C126 | every run of seq-Phragmén; groups agreeing on one unelected candidate | invariant over runs: with m the weight, P and Q the weighted sums of loads and squared loads of the group, 2mP + m(mQ - P^2) <= 4 * satisfaction; a purchase keeps it because the group cannot have more than 1 to spend |
| C127 | weight of the voters who approve a committee member; total approvals of the members | price systems: the represented voters pay for the whole committee, the others cannot pay for any other candidate; PAV: k times the gain by any other candidate is at most the weight of the represented voters, then Cauchy-Schwarz for the approvals of one candidate |
| C128 | the axioms of Spec/Axioms for an arbitrary quota q with total < (k+1)q; the rules as in C77 | PAV/CC: the gain by another candidate, added to the committee, is at most the average loss over k+1 candidates; seq-CC: every step gains at least q and the group's weight is missing; price systems: the rest of the voters pays for at least k-ℓ+1 candidates, the group has at most ℓ in total; contrast by evaluation |
| C129 | two profiles, the ballots of the second are those of the first plus some with approval set A; the rules as in C29 | score after = score before + weight × strictly increasing function of the number of candidates of A (lexicographically for lexcc); what gains afterwards cannot lose for the newcomers; minimax-AV: only newcomers can object to a former winner; contrast by evaluation |
| C130 | SupportAtLeast (distribution of the voters' weights); the run of maximin support (C68) | Hall's condition for supports (C67_support_iff) and submodularity of the weight of the backers: a committee with fewer members and support t/2 can be extended, keeping it, by a member of any committee with support t; the rule extends at least as well; contrast by evaluation |
| C131 | RankingRule (which rules); Satisfies for committees of every size j | the beginnings of a run are runs; the guarantees of C29, C69, C128, C130 and the greedy bound hold for every run; the returned committee is the set of a run |
| C132 | Symmetry (a renaming of the profile to itself), Clones | C78 and C80 for a renaming of the profile to itself; exchanging clones is one; resolute: in smallest-index runs clones are equally good; lexicographically first optima are closed under exchanging clones |
| C133 | Separate, part (the voters who approve only candidates in C) | optimisation rules: the objective is the sum of one that depends on the members in C and one that depends on the others; sequential rules: the members in C in the order of election are a run for the part (for seq-Phragmén with the same loads, for Equal Shares with the same budgets) |
| C134 | OnlySupporters, Party | Equal Shares: the budget that a group has left after a run is its start budget minus the number of its candidates elected; Droop quota: PJR for the quota weight/l (C128) |
