{"id": "C01", "title": "Splitter-tree shape search is sound", "statement": "find_n_m_l(X) raises ValueError for X = 0 and for every X >= 1 returns (n, m, l, s) with 2^n * 3^m = X + l, l >= 0, and s equal to the number of splitters of the tree made of n binary layers followed by m ternary layers.", "quantifier": "every integer X >= 0", "why_tests_cant": "X is unbounded; a test samples finitely many X.", "anchors": ["src/cost.py:find_n_m_l", "src/cost.py:count_splits"]}
{"id": "C02", "title": "Splitter-tree shape search is globally optimal", "statement": "The shape returned by find_n_m_l(X) uses the fewest splitters among ALL pairs (n', m') with 2^n' * 3^m' >= X, not only those in the scanned box, and among the shapes with that splitter count it loops back the fewest branches; moreover fewer than X branches are looped back.", "quantifier": "every X >= 1 and every competing pair (n', m')", "why_tests_cant": "Optimality quantifies over infinitely many competitors for each of infinitely many X.", "anchors": ["src/cost.py:find_n_m_l"]}
{"id": "C03", "title": "Tree tables count splitters and leaves", "statement": "For all n, m: compute_splitters_count(n, m)[i] and compute_branches_count(n, m)[i] are the number of splitters and the number of leaves of the subtree rooted at depth i of the n-binary/m-ternary tree, both lists have n+m+1 entries, and count_splits(n, m) is entry 0 of the first.", "quantifier": "every n, m >= 0 and every depth i <= n+m", "why_tests_cant": "n, m and i are unbounded.", "anchors": ["src/cost.py:count_splits", "src/cost.py:compute_splitters_count", "src/cost.py:compute_branches_count", "src/cost.py:compute_tree_info"]}
{"id": "C04", "title": "Branch selection terminates, is exact and uses the fewest branches", "statement": "For every tree shape and every l >= 0, compute_n_looping_branches terminates without IndexError and returns (k, s) such that there are k subtrees whose leaves total exactly l and whose splitters total s, and no selection of subtrees whose leaves total l has fewer members. For l < 0 it raises IndexError.", "quantifier": "every n, m >= 0, every l", "why_tests_cant": "Both the loop count and the competing selections are unbounded.", "anchors": ["src/cost.py:compute_n_looping_branches"]}
{"id": "C05", "title": "Per-level branch plan is exact and fits", "statement": "compute_looping_branches(n, m, l, branches) terminates for every l >= 0; the branches it selects at each level cover exactly l leaves; the ignore count of a level is exactly the number of positions of that level lying below a branch selected higher up; for l <= 2^n*3^m selected plus ignored positions never exceed the width of any level.", "quantifier": "every n, m, l >= 0 and every level", "why_tests_cant": "unbounded n, m, l", "anchors": ["src/cost.py:compute_looping_branches"]}
{"id": "C06", "title": "merge_cost is the true minimum number of mergers", "statement": "For t >= 1 and every n: n belts can be reduced to at most t belts with exactly merge_cost(n, t) mergers taking 2 or 3 inputs each, and with no fewer.", "quantifier": "every n, every t >= 1, every sequence of mergers", "why_tests_cant": "Lower bound quantifies over all merger sequences.", "anchors": ["src/cost.py:merge_cost"]}
{"id": "C07", "title": "Every move has a strictly positive cost", "statement": "extract_cost(x, c) >= 1 whenever x >= 3 and 0 < c < x; divide_cost(x, d) >= 1 whenever x >= 2, d >= 2 and d divides x; merge_cost(k, 1) >= 1 for k >= 2; split_cost() = 3. Neither function raises on these arguments. So the scores, which divide by these costs, never divide by zero.", "quantifier": "every x, c, d, k in range", "why_tests_cant": "unbounded arguments; one zero cost would loop the search forever or crash the scorer", "anchors": ["src/cost.py:extract_cost", "src/cost.py:divide_cost", "src/score.py:ScoreCalculator"]}
{"id": "C08", "title": "divide_cost follows one uniform formula", "statement": "For every x >= 2 and every divisor d >= 2 of x, divide_cost(x, d) = (splitters kept after rerouting whole looped subtrees) + (mergers for the looped branches, plus the over-limit surcharge when the fed-back belt exceeds the conveyor limit); the shortcuts for d = 2, 3, l = 0, l < 3 and l = x do not change the value.", "quantifier": "every x >= 2 and every divisor d >= 2 of x", "why_tests_cant": "infinitely many (x, d); the shortcuts are believed to be pure optimisations", "anchors": ["src/cost.py:divide_cost"]}
{"id": "C09", "title": "Over-limit surcharge is charged exactly when the belt is over the limit", "statement": "extract_cost and divide_cost add the over-limit surcharge iff the belt feeding the splitter tree, which carries x plus l/d of x looped back, exceeds the conveyor limit.", "quantifier": "every x, c (resp. d)", "why_tests_cant": "the two formulas for the looped flow differ only on a sparse set of inputs", "anchors": ["src/cost.py:extract_cost", "src/cost.py:divide_cost", "src/node.py:Node.expand_extract", "src/node.py:Node.expand_divide"]}
{"id": "C10", "title": "FastList behaves as an ordered set", "statement": "After any sequence of append, extend, remove, pop (any index) and clear, including calls that raise, a FastList has no duplicate element, contains(x) answers exactly whether x is an element, and the order is insertion order.", "quantifier": "every sequence of operations and arguments", "why_tests_cant": "operation histories are unbounded; list and set can drift apart", "anchors": ["src/utils/fastlist.py:FastList"]}
{"id": "C11", "title": "remove_pairs is exact multiset cancellation", "statement": "remove_pairs(a, b) returns (a', b') such that for every value v, count_a'(v) = count_a(v) - min(count_a(v), count_b(v)) and likewise for b'; hence a' and b' share no value, sum(a) - sum(b) is preserved, sortedness is preserved, and applying it again changes nothing.", "quantifier": "every pair of lists", "why_tests_cant": "all lists", "anchors": ["src/utils/other.py:remove_pairs"]}
{"id": "C12", "title": "Scaling to integers is exact and minimal", "statement": "fractions_to_integers(fs) returns (ints, D) with ints[i] = fs[i] * D exactly for each i, D >= 1, and D divides every other positive common multiplier that makes all the values integral. Order, sums and comparisons are preserved.", "quantifier": "every list of fractions", "why_tests_cant": "unbounded lists and denominators", "anchors": ["src/utils/fractions.py:fractions_to_integers"]}
{"id": "C13", "title": "Decimal classification is correct", "statement": "decimal_representation_info(f) terminates and returns (True, m) iff f has a finite decimal expansion, with m the least number of decimals that suffices; otherwise it returns (False, m) where m is the length of the non-repeating part, or (False, None) when that length is zero.", "quantifier": "every fraction", "why_tests_cant": "unbounded denominators", "anchors": ["src/utils/fractions.py:decimal_representation_info"]}
{"id": "C14", "title": "Decimal literals denote the right rational", "statement": "parse_fraction on 'w.f', 'w.f(r)', 'a/b', 'a⧸b' and integer literals returns exactly the rational the literal denotes; for a repeating block r this is the limit of the expansions w.f, w.fr, w.frr, ...", "quantifier": "every digit string w, f, r and integers a, b", "why_tests_cant": "all digit strings", "anchors": ["src/utils/fractions.py:parse_fraction", "src/utils/fractions.py:parse_decimal"]}
{"id": "C15", "title": "Problem names parse back to the same problem", "statement": "For all non-empty lists of non-negative sources and targets, parse_user_input(format_fractions(sources) + ' to ' + format_fractions(targets)) succeeds and returns the same multisets (the same lists when equal values are adjacent). The CLI relies on this when it offers result directories as recallable commands, also after '⧸' was replaced by '/'.", "quantifier": "every pair of non-empty lists of non-negative fractions", "why_tests_cant": "all rationals, all multiplicities", "anchors": ["src/utils/fractions.py:format_fractions", "src/utils/solver.py:parse_user_input", "src/utils/cli.py:UniqueInMemoryHistory", "src/solver.py:SatisSolver.load"]}
{"id": "C16", "title": "Problem names are single path components and identify the problem", "statement": "format_fractions never emits the character '/', and two problems with different multisets never get the same directory name.", "quantifier": "every list of non-negative fractions", "why_tests_cant": "all inputs", "anchors": ["src/utils/fractions.py:format_fractions", "src/solver.py:SatisSolver.conclude"]}
{"id": "C17", "title": "Linear combinations are solutions", "statement": "Every vector yielded by find_linear_combinations(x, y) satisfies sum(c_i * x_i) = y with 0 <= c_i, and every such vector is yielded.", "quantifier": "every list x of positive integers and every y", "why_tests_cant": "all x, y", "anchors": ["src/utils/math.py:find_linear_combinations"]}
{"id": "C18", "title": "all_sums enumerates exactly the subset sums", "statement": "For positive numbers, all_sums(numbers) has as keys exactly the sums of the non-empty sub-multisets, and the count stored with a key is the size of some sub-multiset with that sum.", "quantifier": "every list of positive integers", "why_tests_cant": "exponentially many subsets, all lists", "anchors": ["src/utils/math.py:all_sums"]}
{"id": "C19", "title": "The gcd filter never rejects a needed value", "statement": "compute_gcd(values) divides every value and is divisible by every common divisor; gcd_incompatible(gcd, v) is False for every positive source, target, and every positive multiple of the gcd.", "quantifier": "every non-empty list of non-negative integers", "why_tests_cant": "all lists", "anchors": ["src/utils/math.py:compute_gcd", "src/utils/solver.py:gcd_incompatible", "src/utils/math.py:get_divisors"]}
{"id": "C20", "title": "Parsing user input is total and rejects cleanly", "statement": "For every input string load() either accepts it, returns False, or raises an exception that CLI.main swallows; a string that is rejected by the parser leaves the solver's state exactly as it was.", "quantifier": "every string and every previous solver state", "why_tests_cant": "all strings", "anchors": ["src/solver.py:SatisSolver.load", "src/utils/solver.py:parse_user_input", "src/utils/cli.py:CLI.main"]}
{"id": "C21", "title": "Loading balances flow", "statement": "After load accepts an input, the total of the loaded sources equals the total of the loaded targets, both scaled by the same unit_flow_ratio; when the user's totals differ exactly one extra node carrying the difference is added on the lacking side.", "quantifier": "every parsed input", "why_tests_cant": "all inputs", "anchors": ["src/solver.py:SatisSolver.load"]}
{"id": "C22", "title": "Loaded problem is the requested problem", "statement": "After load, sources are sorted positive integers; multiplied back by 1/unit_flow_ratio they are exactly the requested sources minus those cancelled against an equal target; the leaves below the grouped targets are exactly the requested targets minus the cancelled ones.", "quantifier": "every input of positive values accepted by load", "why_tests_cant": "all inputs", "anchors": ["src/solver.py:SatisSolver.load", "src/node.py:Node.group_values"]}
{"id": "C23", "title": "Loading never trips its own assertion", "statement": "For inputs with only positive values, after cancellation the source list is empty iff the target list is empty, so load's assertion holds and min()/Tree() get non-empty arguments.", "quantifier": "every input of positive values", "why_tests_cant": "all inputs", "anchors": ["src/solver.py:SatisSolver.load"]}
{"id": "C24", "title": "Every balanced positive problem can be loaded", "statement": "load accepts every input of positive values that does not cancel out completely (it does not raise).", "quantifier": "every input of positive values", "why_tests_cant": "only very small totals behave differently", "anchors": ["src/solver.py:SatisSolver.best_size_upper_bond", "src/cost.py:extract_cost"]}
{"id": "C25", "title": "Grouping targets is lossless", "statement": "group_values(values) terminates; the returned forest has pairwise distinct, increasing root values; each inner node's value is the number of its children times the common child value; the leaves are exactly the given values; the reported cost is the sum of divide_cost over the inner nodes.", "quantifier": "every list of positive integers", "why_tests_cant": "all lists; repeated grouping cascades", "anchors": ["src/node.py:Node.group_values"]}
{"id": "C26", "title": "Every move conserves flow", "statement": "extract, divide (when the divisor divides the value), split and merge create nodes whose values sum to the values of the nodes consumed, link both directions (parent/child) consistently, and change no other node.", "quantifier": "every heap, node, and admissible argument", "why_tests_cant": "all graphs", "anchors": ["src/node.py:Node.extract", "src/node.py:Node.divide", "src/node.py:Node.split", "src/node.py:Node.merge"]}
{"id": "C27", "title": "Search states are well formed", "statement": "In every tree the solver ever enqueues: sources are sorted by value, all values are positive integers, the cached source_values / n_sources / last level agree with the sources, the sources are exactly the nodes without children, and the total equals the total of the loaded sources.", "quantifier": "every input, random choice, score function, stop schedule and number of search steps", "why_tests_cant": "unbounded search histories", "anchors": ["src/tree.py:Tree.add", "src/solver.py:SatisSolver.solve"]}
{"id": "C28", "title": "Predicted states are the real states", "statement": "For every move proposed by extract_sims, divide_sims, split_sims and merge_sims, applying the move to a copy of the tree yields a tree whose source_values is exactly the tuple the move generator predicted and tested for repetition.", "quantifier": "every well-formed tree and every proposed move", "why_tests_cant": "all trees", "anchors": ["src/solver.py:SatisSolver.extract_sims", "src/solver.py:SatisSolver.divide_sims", "src/solver.py:SatisSolver.merge_sims", "src/solver.py:SatisSolver.split_sims"]}
{"id": "C29", "title": "Solution graphs are acyclic and layered", "statement": "In every tree the solver ever enqueues, each edge goes from a node to a node of strictly greater level; sources carry the current level and roots without later use level 0 upward; hence the graph is acyclic.", "quantifier": "every reachable search state", "why_tests_cant": "unbounded histories", "anchors": ["src/tree.py:Tree.add", "src/node.py:Node"]}
{"id": "C30", "title": "Copies are independent and faithful", "statement": "Tree.deepcopy terminates on every finite graph, never changes an existing node, creates only fresh nodes, and the copy has the same node ids, values, levels and pending expansions, and the same edges with multiplicity.", "quantifier": "every finite node graph, including shared and cyclic ones", "why_tests_cant": "all graphs", "anchors": ["src/tree.py:Tree.deepcopy", "src/node.py:Node._deepcopy"]}
{"id": "C31", "title": "Copies keep each node's past", "statement": "Copying a tree preserves every node's past (the set of values among itself and its ancestors), so a move never recreates a value already present among a node's ancestors.", "quantifier": "every search state", "why_tests_cant": "shows only after at least two chained copies", "anchors": ["src/node.py:Node._deepcopy", "src/solver.py:SatisSolver.extract_sims"]}
{"id": "C32", "title": "The search never revisits a state along a branch", "statement": "In every tree the solver enqueues, the sequence of source value tuples from the start to the current state has no repetition.", "quantifier": "every reachable search state", "why_tests_cant": "unbounded histories", "anchors": ["src/tree.py:Tree.add", "src/solver.py:SatisSolver.extract_sims"]}
{"id": "C33", "title": "Reported solutions are correct", "statement": "Every tree in solutions, at any time and under any schedule, has roots equal to the loaded sources and leaves equal to the grouped targets, with flow conserved at every node.", "quantifier": "every input, random choice, score function and stop schedule", "why_tests_cant": "all executions", "anchors": ["src/solver.py:SatisSolver.solve", "src/solver.py:SatisSolver.is_solution"]}
{"id": "C34", "title": "Reported solutions share the best size found", "statement": "At any time all trees in solutions have the same size, equal to best_size once a solution exists; solutions_count is their number; best_size never increases after the first solution is found; a tree's size is the sum of the costs of the moves that built it; the 'impossible case' branch is never taken.", "quantifier": "every execution", "why_tests_cant": "all executions", "anchors": ["src/solver.py:SatisSolver.solve"]}
{"id": "C35", "title": "The search terminates", "statement": "Without any stop request, solve() terminates for every loaded problem, whatever the random choices and scores.", "quantifier": "every loaded problem, every random choice and score function", "why_tests_cant": "termination over all schedules", "anchors": ["src/solver.py:SatisSolver.solve"]}
{"id": "C36", "title": "Stopping is honoured", "statement": "Once stop() has cleared the solving flag, solve() returns without enqueuing another tree or changing the solutions list, and does not raise, whatever the moment at which the flag is cleared.", "quantifier": "every moment (schedule) of the stop request", "why_tests_cant": "the failing window is a few bytecodes wide", "anchors": ["src/solver.py:SatisSolver.solve", "src/solver.py:SatisSolver.stop"]}
{"id": "C37", "title": "No solution means none reachable", "statement": "If solve() ends by itself with no solution, then no sequence of permitted moves within the initial size bound leads from the sources to the targets.", "quantifier": "every loaded problem, random choice and score function", "why_tests_cant": "universal claim about unexplored sequences", "anchors": ["src/solver.py:SatisSolver.solve"]}
{"id": "C38", "title": "The best size is optimal among permitted move sequences", "statement": "If solve() ends by itself, no sequence of permitted moves reaches the targets with a total cost smaller than the reported best size.", "quantifier": "every loaded problem, random choice and score function", "why_tests_cant": "universal claim about unexplored sequences", "anchors": ["src/solver.py:SatisSolver.solve"]}
{"id": "C39", "title": "A stop request during a run always takes effect", "statement": "If stop() is called while the backend is running (backend.running is true), then solving or concluding is cut short.", "quantifier": "every interleaving of run() and stop()", "why_tests_cant": "narrow windows", "anchors": ["src/solver.py:SatisSolver.run", "src/solver.py:SatisSolver.stop", "src/utils/cli.py:CLI.exit"]}
{"id": "C40", "title": "Attaching the target groups yields the requested leaves", "statement": "After attach_leaves on a solution, the tree's sources are exactly the leaves of the grouped targets, sorted; flow is conserved; the size is unchanged; the assertion on the number of leaves holds for every solution.", "quantifier": "every solution and every grouped target forest", "why_tests_cant": "all forests", "anchors": ["src/tree.py:Tree.attach_leaves"]}
{"id": "C41", "title": "Each saved solution is independent of the others", "statement": "Saving several solutions one after the other writes, for each, what saving it alone would have written, and concluding always terminates.", "quantifier": "every list of solutions and every target forest", "why_tests_cant": "needs equal-size solutions and nested groups", "anchors": ["src/solver.py:SatisSolver.conclude", "src/tree.py:Tree.attach_leaves", "src/tree.py:Tree.save"]}
{"id": "C42", "title": "Expanding a division yields a correct splitter network", "statement": "After expand_divide(node, d) below the conveyor limit, every splitter has exactly two or exactly three outputs, each original child is fed by exactly one splitter output carrying value/d, the looped outputs carry l*value/d back to the node, and every index used is in range.", "quantifier": "every node value and every divisor d >= 4", "why_tests_cant": "all d", "anchors": ["src/node.py:Node.expand_divide"]}
{"id": "C43", "title": "Expanding an extraction yields a correct splitter network", "statement": "After expand_extract(node, c) below the conveyor limit, every splitter has exactly two or three outputs and the outputs routed to the extracted child, the overflow child and the loop carry exactly c, value - c and the looped flow.", "quantifier": "every node value >= 3 and every 0 < c < value", "why_tests_cant": "all x, c", "anchors": ["src/node.py:Node.expand_extract"]}
{"id": "C44", "title": "Expanding a merge yields a correct merger network", "statement": "expand_merge(node, threshold) terminates, leaves at most threshold inputs, uses mergers of at most 3 inputs, and keeps every input flow connected to the node.", "quantifier": "every node and every list of inputs, also with repeated inputs", "why_tests_cant": "needs a splitter with two outputs into the same merger", "anchors": ["src/node.py:Node.expand_merge", "src/node.py:Node.merge"]}
{"id": "C45", "title": "Expanded networks respect the conveyor limit", "statement": "No node of an expanded network carries more than the conveyor limit when the node being expanded does not.", "quantifier": "every expanded node", "why_tests_cant": "only some (value, divisor) pairs", "anchors": ["src/node.py:Node.expand_divide", "src/node.py:Node.expand_extract"]}
{"id": "C46", "title": "Expansion leaves every node with a level", "statement": "After expand_roots every reachable node has a numeric level, so the level update pass and the drawing do not raise.", "quantifier": "every solution", "why_tests_cant": "only over-limit nodes", "anchors": ["src/node.py:Node.expand_divide", "src/node.py:Node.expand_extract", "src/node.py:Node.tag_levels_update"]}
{"id": "C47", "title": "Splits deliver the intended flows", "statement": "expand_split keeps total flow: in steady state the inserted loop node delivers conveyor_speed/3 to each of its two real outputs, and parent/child links stay mutually consistent.", "quantifier": "every node value and conveyor speed", "why_tests_cant": "all values", "anchors": ["src/node.py:Node.expand_split", "src/node.py:Node.split"]}
{"id": "C48", "title": "Saved data round-trips", "statement": "unwrap(wrap(root)) rebuilds the same graph: same ids, values, levels, parents, children and pending expansions for every saved node, and returns the level-0 nodes.", "quantifier": "every connected finite graph", "why_tests_cant": "all graphs", "anchors": ["src/node.py:Node.wrap", "src/node.py:Node.unwrap"]}
{"id": "C49", "title": "Saved data is complete", "statement": "The .data file written for a solution contains every node of the solution.", "quantifier": "every solution, also with several disconnected parts", "why_tests_cant": "needs several independent roots", "anchors": ["src/node.py:Node.save", "src/node.py:Node.wrap"]}
{"id": "C50", "title": "Duplicate detection only drops equal solutions", "statement": "A solution is discarded as duplicate only if it equals (same values and connections up to node ids) an already recorded one.", "quantifier": "every pair of solutions", "why_tests_cant": "all pairs", "anchors": ["src/tree.py:Tree.__eq__", "src/tree.py:Tree.to_nx_graph", "src/solver.py:SatisSolver.solve"]}
{"id": "C51", "title": "Cleaning removes exactly the solver's own files", "statement": "clear_solution_files removes every file a previous run of the solver saved in the directory and no other file.", "quantifier": "every file name", "why_tests_cant": "all names", "anchors": ["config.py:solution_regex", "src/solver.py:SatisSolver.clear_solution_files", "src/tree.py:Tree.save"]}
{"id": "C52", "title": "Command history has no duplicates and is most-recent first", "statement": "After any sequence of append_string calls both history lists hold each (slash-normalised) command once, ordered by last use.", "quantifier": "every sequence of commands", "why_tests_cant": "unbounded histories", "anchors": ["src/utils/cli.py:UniqueInMemoryHistory"]}
{"id": "C53", "title": "Needed sources are protected", "statement": "compute_cant_use returns exactly the values that occur among the sources at most as often as among the targets (and at least once in both); no proposed move consumes such a source.", "quantifier": "every tree and every target list", "why_tests_cant": "all trees", "anchors": ["src/utils/solver.py:compute_cant_use", "src/solver.py:SatisSolver.extract_sims"]}
{"id": "C54", "title": "Merges respect the conveyor limit", "statement": "No move ever creates a belt above the conveyor limit: every value in every explored state is at most the larger of the conveyor limit and the largest loaded source.", "quantifier": "every reachable state", "why_tests_cant": "unbounded histories", "anchors": ["src/solver.py:SatisSolver.merge_sims"]}
{"id": "C55", "title": "Limits are applied to real flows", "statement": "A merge is rejected for exceeding the conveyor limit iff the real flow (value / unit_flow_ratio) exceeds it.", "quantifier": "every input, in particular fractional ones", "why_tests_cant": "only fractional inputs are affected", "anchors": ["src/solver.py:SatisSolver.merge_sims", "src/solver.py:SatisSolver.load"]}
{"id": "C56", "title": "Solution test is exact", "statement": "is_solution(sources) is True iff the values of the sources, in order, are exactly the target values.", "quantifier": "every list of sources", "why_tests_cant": "all lists", "anchors": ["src/solver.py:SatisSolver.is_solution"]}
{"id": "C57", "title": "Traversals visit each reachable node exactly once", "statement": "min_level, tag_levels_update, apply_levels_update, expand and populate terminate on every finite graph (with cycles) and treat every node reachable from the roots exactly once; after expand_roots each node's level has been raised by exactly the amounts whose threshold it had reached.", "quantifier": "every finite graph", "why_tests_cant": "all graphs", "anchors": ["src/node.py:Node.min_level", "src/node.py:Node.tag_levels_update", "src/node.py:Node.apply_levels_update", "src/node.py:Node.populate"]}
{"id": "C58", "title": "Scores are well defined and bounded", "statement": "ScoreCalculator.compute never divides by zero for positive sources and targets; the score is non-negative, at least the square of the number of matched targets, and equals n_targets^2 exactly when the sources are the targets.", "quantifier": "every list of positive sources and targets", "why_tests_cant": "all lists", "anchors": ["src/score.py:ScoreCalculator"]}
{"id": "C59", "title": "The initial size bound is attained", "statement": "The bound computed by load is the size of an actual plan: merge all sources, then extract the targets one by one; so when that plan consists of permitted moves the search cannot end without a solution.", "quantifier": "every loaded problem", "why_tests_cant": "all problems", "anchors": ["src/solver.py:SatisSolver.best_size_upper_bond"]}
{"id": "C60", "title": "The backend flag always comes down", "statement": "Whatever happens in the backend thread (normal end, exception, SystemExit, stop at any time), CLI.main returns to the prompt: backend.running becomes false after the backend's last step and never earlier.", "quantifier": "every interleaving and every outcome of the backend", "why_tests_cant": "all interleavings", "anchors": ["src/utils/cli.py:CLI.main", "src/solver.py:SatisSolver.run"]}
{"id": "C61", "title": "A request is answered by networks from its sources to its targets", "statement": "For an accepted input with positive values, a run that is not stopped ends, and every solution it reports becomes, after attach_leaves, an acyclic flow-conserving graph whose roots carry the requested sources and whose childless nodes carry the requested targets, in the unit of the request, after balancing and cancelling.", "quantifier": "every accepted input, every order of exploration", "why_tests_cant": "all inputs, end to end", "anchors": ["src/solver.py:SatisSolver.load", "src/solver.py:SatisSolver.solve", "src/solver.py:SatisSolver.conclude", "src/tree.py:Tree.attach_leaves"]}
{"id": "C62", "title": "The files of one run do not overwrite each other", "statement": "For any number of solutions, the names of the files written by conclude (picture and data of the plain and of the expanded network of each solution) are pairwise different.", "quantifier": "every number of solutions", "why_tests_cant": "all numbers; decimal names against suffixes", "anchors": ["src/tree.py:Tree.save", "src/node.py:Node.save", "config.py:solutions_filename"]}
{"id": "C63", "title": "A move costs what its expansion builds", "statement": "The price of a move is the number of machines its expansion builds: for a division, extraction or split the splitters of the network plus the mergers that make one belt of those leading to each splitter and each served node; for a merge the mergers.", "quantifier": "every node and every division, extraction (not at a belt speed), split and merge", "why_tests_cant": "all values; cost.py computes prices without building anything and node.py builds without pricing", "anchors": ["src/cost.py:divide_cost", "src/cost.py:extract_cost", "src/cost.py:merge_cost", "src/cost.py:split_cost", "src/node.py:Node.expand_divide", "src/node.py:Node.expand_extract", "src/node.py:Node.expand_split", "src/node.py:Node.expand_merge"]}
{"id": "C64", "title": "The prompt loop handles every line and ends exactly on request", "statement": "main is called once for every line entered, in order, except for exit, quit and q; after each line the prompt comes back; the loop ends exactly when the user asks for it (an exit word, end of file or Ctrl+C at the prompt, or Ctrl+C while no run is in progress); no prompt is shown after that; close is called exactly once, when no run is in progress, and at every prompt the backend is at rest.", "quantifier": "every sequence of user inputs, every schedule of the two threads and signals, every behaviour of load, solve and conclude", "why_tests_cant": "all interleavings of threads and signals, unbounded sessions", "anchors": ["src/utils/cli.py:CLI.run", "src/utils/cli.py:CLI.main", "src/utils/cli.py:CLI.exit"]}
{"id": "C65", "title": "Ctrl+C during a run stops the run, not the program", "statement": "A SIGINT that arrives while backend.running is true never ends the session, and a SIGINT that arrives while a line is loaded ends the session without running the problem.", "quantifier": "every schedule of the two threads and signals", "why_tests_cant": "a race between the handler and the last step of the backend", "anchors": ["src/utils/cli.py:CLI.exit", "src/utils/cli.py:CLI.main", "src/solver.py:SatisSolver.run"]}
{"id": "C66", "title": "The expanded network as a whole delivers what was asked for", "statement": "For every solution network, expand_roots ends with a network that can be built: nothing is pending, every node merges at most three belts and splits its flow evenly over at most three belts (or over one belt of a given speed and the rest), the leaves are those of the solution, and there are flows on all belts that are conserved at every node, start with the source values and bring every leaf its target value. These flows are the only ones the machines allow, and none exceeds the speed of the fastest belt unless a value of the solution does.", "quantifier": "every network with consistent values and pending divisions, extractions and merges, of any size", "why_tests_cant": "unbounded networks and values; one expansion changes the inputs of the next ones; whether flows exist is a linear system over the whole network", "anchors": ["src/node.py:expand_roots", "src/node.py:expand", "src/node.py:expand_extract", "src/node.py:expand_divide", "src/node.py:expand_merge"]}
{"id": "C67", "title": "What the user asked for is what the built network delivers", "statement": "For every accepted request and every solution a run reports for it, attaching the targets and expanding the result gives a network that can be built: nothing is pending, its leaves are the targets, and there are flows on its belts that are conserved at every machine, start with the requested sources and bring the requested targets, in the unit of the request, after balancing and cancelling. These flows are the only ones the machines allow.", "quantifier": "every input line, every run of the search (any oracle, any stop time), every solution it reports", "why_tests_cant": "the chain parse, load, group targets, search, attach, expand over unbounded inputs; each link is correct only for what the one before produces", "anchors": ["src/solver.py:SatisSolver.load", "src/solver.py:SatisSolver.solve", "src/solver.py:SatisSolver.conclude", "src/tree.py:Tree.attach_leaves", "src/node.py:expand_roots"]}
{"id": "C68", "title": "The C routine lists every combination exactly once, inside its arrays", "statement": "combinations(values, n, r, …) with r <= MAX_R, n <= MAX_N and buffers of binomial(n, r) rows ends without leaving any array (stack, buffers, cur_combination) and without signed overflow; the rows stored are sorted, pairwise different, and exactly the ways to take r of the values, with their sums; the rest of the buffers is untouched. With n > MAX_N the stack array is left.", "quantifier": "every array of values whose sums fit into an int, every r up to MAX_R", "why_tests_cant": "all arrays; the stack bound depends on the order in which frames are popped", "anchors": ["tests/combinations.c:combinations", "tests/combinations.c:sort_combination", "tests/combinations.c:is_duplicate"]}
{"id": "C69", "title": "The recursive C routine lists the same combinations", "statement": "old_combinations with buffers of binomial(n, r) rows stays inside its arrays and stores exactly the ways to take r of the values.", "quantifier": "every array of values, every r", "why_tests_cant": "all arrays; the shared array is sorted in place while the callers still use it", "anchors": ["tests/combinations.c:old_generate_combinations", "tests/combinations.c:old_combinations"]}
{"id": "C70", "title": "binomial_coefficient is the binomial coefficient", "statement": "binomial_coefficient(r, n) returns n choose r whatever the global array holds, for r <= MAX_R as long as the coefficients fit into an int; for r > MAX_R it leaves the array.", "quantifier": "every r, n and every content of the global array", "why_tests_cant": "all n, r and all earlier calls", "anchors": ["tests/combinations.c:binomial_coefficient"]}
{"id": "C71", "title": "The merger simulation keeps its books", "statement": "After every sequence of Merger.simulate steps on a new merger the histories of the inputs and the history of the merger hold exactly the steps 1..current_step, in order and each step once, no buffer exceeds its limit, and generate_sequence names the owner of each step; stabilize_effective_rates ends when some input is positive and its rates add up to the output speed.", "quantifier": "every list of input speeds, every output speed, every number of steps", "why_tests_cant": "all speeds and all run lengths; the stabilisation loop has no bound in the code", "anchors": ["tests/merger_simulation.py:Merger.simulate", "tests/merger_simulation.py:Merger.stabilize_effective_rates", "tests/merger_simulation.py:Merger.generate_sequence"]}
{"id": "C72", "title": "No input of the merger hands on more than it received", "statement": "In the merger simulation no input hands on more items than arrived at it, all inputs together hand on at most one item per step, and a merger that was reset behaves like a new one.", "quantifier": "every list of input speeds, every output speed, every number of steps", "why_tests_cant": "all speeds and all run lengths", "anchors": ["tests/merger_simulation.py:Merger.simulate", "tests/merger_simulation.py:Merger.reset", "tests/merger_simulation.py:generate_simulations"]}
{"id": "C73", "title": "The two ways of removing pairs agree", "statement": "remove_pairs_original and remove_pairs leave the same values with the same multiplicities (what one list has and the other has not), the first one in the original order; so benchmark finds them consistent on every list of test cases, and it answers consistent only if every case agrees.", "quantifier": "all lists, all test cases", "why_tests_cant": "the script samples a thousand random lists", "anchors": ["tests/gpt.py:remove_pairs_original", "tests/gpt.py:remove_pairs", "tests/gpt.py:benchmark"]}
{"id": "C74", "title": "The graph of belt speeds is complete", "statement": "The loop of generate.py ends; its nodes are exactly the speeds reachable from the first ones by halving, thirds, doubling and tripling within the bound, each once; two nodes are joined exactly if one is twice or three times the other, by one edge labelled with that factor.", "quantifier": "every list of first speeds and every bound", "why_tests_cant": "all first speeds and bounds; the loop extends the list it walks over", "anchors": ["tests/generate.py:nodes", "tests/generate.py:operations"]}
{"id": "C75", "title": "Grouping equal values can be undone", "statement": "Calling group_values until it reports no change ends; the sum is kept, no two neighbours are equal afterwards, and running the logged divisions in reverse order with run_operations, beside any other sources, gives back the original values.", "quantifier": "all lists of integers, all further sources", "why_tests_cant": "all lists; the loop shortens the list it walks over", "anchors": ["test.py:group_values", "test.py:run_operations", "src/node.py:group_values"]}
{"id": "C76", "title": "Each step of the greedy solver accounts for its targets", "statement": "When apply_best_merge, apply_best_extract_two_targets or apply_best_extract_one_target makes a step, the logged operation run on the sources gives exactly the sources afterwards and the targets struck off; so a sequence of such steps that strikes off every target and leaves no source turns the sources into the targets.", "quantifier": "all lists of sources and targets, all costs, all orders in which a set is listed", "why_tests_cant": "all lists and all set orders", "anchors": ["test.py:apply_best_merge", "test.py:apply_best_extract_two_targets", "test.py:apply_best_extract_one_target", "test.py:run_operations", "test.py:has_sufficient_sources"]}
{"id": "C77", "title": "What the greedy solver returns passes the check of run_problem", "statement": "For positive requests solve of test.py never reports 'oopsie'; what it returns turns the scaled sources into the scaled targets when run, and the assertion of run_problem holds.", "quantifier": "all lists of positive fractions", "why_tests_cant": "all requests", "anchors": ["test.py:solve", "test.py:run_problem", "test.py:run_operations"]}
{"id": "C78", "title": "Looped-back branches never overload the first splitter's outputs", "statement": "For every belt within the limit and every division the experiment of test.py never prints 'please no', also not with the flow that is really looped back; compute gives the share kept by each branch, the solution of the balance equation.", "quantifier": "all belts within the limit, all divisions, all trees and numbers of looped branches", "why_tests_cant": "the experiment tries integer belts up to 1200", "anchors": ["test.py:compute", "src/cost.py:find_n_m_l"]}
{"id": "C79", "title": "count_merges counts the mergers of the looped-back branches", "statement": "count_merges(n, m, l) is the least number of mergers that join l looped-back branches to a belt.", "quantifier": "all numbers of branches", "why_tests_cant": "all numbers", "anchors": ["test.py:count_merges"]}
{"id": "C80", "title": "The simulated solver ends on every request", "statement": "The loop of solve in tests/sim.py ends (returns, exits or raises) on every request: each round makes the lists of sources and targets together shorter, so it takes at most one round more than there are values, the difference appended at the start counted.", "quantifier": "all lists of integers, all extraction costs, including a cost function that raises", "why_tests_cant": "termination over all inputs", "anchors": ["tests/sim.py:solve", "tests/sim.py:group_values", "tests/sim.py:apply_best_merge", "tests/sim.py:apply_best_extract_two_targets", "tests/sim.py:apply_best_extract_one_target"]}
{"id": "C81", "title": "Each step of the simulated solver takes the cheapest candidate", "statement": "apply_best_merge merges at least two sources that add up to a target whenever there are such sources, and no such sources would be merged for less; apply_best_extract_two_targets and apply_best_extract_one_target pick a source and targets that fit, and none that fit cost less.", "quantifier": "all lists of sources and targets, all extraction costs", "why_tests_cant": "optimality over all subsets of the sources", "anchors": ["tests/sim.py:apply_best_merge", "tests/sim.py:apply_best_extract_two_targets", "tests/sim.py:apply_best_extract_one_target"]}
{"id": "C82", "title": "The simulated solver serves every positive request", "statement": "For positive sources and targets solve of tests/sim.py returns: it neither reports 'oopsie' nor raises.", "quantifier": "all lists of positive integers (at least 3, where extract_cost is defined)", "why_tests_cant": "all requests", "anchors": ["tests/sim.py:solve", "tests/sim.py:apply_best_merge", "tests/sim.py:group_values"]}
{"id": "C83", "title": "The merger shares its output between two belts", "statement": "For two belts of speeds x and z into an output of speed y, x < z, the effective rates the simulated merger ends with are min x (y/2) and the rest of y if x < y ≤ z, and y - y/2 and y/2 if y ≤ x (y/2 rounded down).", "quantifier": "all speeds, every bound on the number of rounds that is enough", "why_tests_cant": "one closed formula for all speeds", "anchors": ["tests/merger_simulation.py:Merger.simulate", "tests/merger_simulation.py:Merger.stabilize_effective_rates", "tests/merger_simulation.py:generate_simulations"]}
{"id": "C84", "title": "The relation the simulations are checked for", "statement": "run_predicates reports no row of generate_simulations: wherever the slower belt brings at least half of the output both belts have the same rate.", "quantifier": "all rows of generate_simulations", "why_tests_cant": "all rows, for every bound on the speeds", "anchors": ["tests/merger_simulation.py:run_predicates", "tests/merger_simulation.py:generate_simulations"]}
{"id": "C85", "title": "The random simulation of a merger ends", "statement": "Whatever the random choices are, the simulation at the top of tests/merger_simulation.py does not run past the end of its list of moves: each round delivers its n_items items, all of them brought in by one of the inputs before, no buffer is over its size, and the three averages printed add up to n_items.", "quantifier": "all random choices, all numbers of simulations, all conveyors of which one input is slower than the output and fast enough for the list, all fillings of the buffers", "why_tests_cant": "all random choices", "anchors": ["tests/merger_simulation.py:21-62"]}
{"id": "C86", "title": "The demonstration of a looped-back belt ends", "statement": "The loop of tests/show.py ends and then shows flows that round to the only steady state of the network (12, 6, 6 and five times 2); with the rounding of Python's floats after 21 rounds.", "quantifier": "all rounding functions that take the numbers close to 2 to 2", "why_tests_cant": "all roundings; that the steady state is the only one", "anchors": ["tests/show.py"]}
{"id": "C87", "title": "Chunk files hold all simulations once", "statement": "The files written by save_formatted_simulations hold the texts of all simulations, in order and each once; every file but the last has reached the size asked for and none had reached it before its last text. A negative size gives one file.", "quantifier": "all simulations, formats, sizes of chunks and measures of the size of a file", "why_tests_cant": "all lists and sizes", "anchors": ["tests/merger_simulation.py:save_formatted_simulations"]}
{"id": "C88", "title": "Which words are numbers", "statement": "parse_fraction accepts exactly the words that are an integer, a quotient of two integers written with / or the replacement character, or a decimal with an optional repeating part, gives them their value, and reads the whole word.", "quantifier": "all words", "why_tests_cant": "a statement about every string, in both directions", "anchors": ["src/utils/fractions.py:parse_fraction", "src/utils/fractions.py:parse_decimal"]}
{"id": "C89", "title": "Which lines are requests", "statement": "parse_user_input gives the sources and targets of a line exactly if the line consists of values, the word to once, and values, where a value is a number or a count Nx followed by a number; the result is determined by the line.", "quantifier": "all lines", "why_tests_cant": "a statement about every string, in both directions", "anchors": ["src/utils/solver.py:parse_user_input", "src/utils/fractions.py:parse_fraction"]}
{"id": "C90", "title": "The merge step of the greedy solver finds the cheapest merge", "statement": "apply_best_merge reports no merge exactly if no selection of sources, each smaller than some target, sums to that target; and the merge it makes has the least cost among all of them.", "quantifier": "all lists of positive sources and targets", "why_tests_cant": "it needs an enumeration of all selections for all inputs", "anchors": ["test.py:apply_best_merge", "test.py:has_sufficient_sources", "test.py:find_linear_combinations"]}
{"id": "C91", "title": "The items of a video are read correctly", "statement": "closest_color gives black for a dark pixel and otherwise the brightest channel (red before green before blue); the letters appended for a video are exactly the items that pass, each once and in order; the printed shares are the parts of 780 rounded down and miss at most 2 in total.", "quantifier": "all pixels, all videos, all records of letters", "why_tests_cant": "needs every video; the exact condition under which an item is missed is a statement about all of them", "anchors": ["tests/analyze_merger.py:closest_color", "tests/analyze_merger.py:extract_and_filter_colors"]}
{"id": "C92", "title": "No Ctrl+C is lost with the example backend", "statement": "With the example backend of main.py every SIGINT that is handled during a run takes effect: it stops the run if the flag is up and ends the session otherwise; run looks at the flag at most 30 times and the prompt comes back.", "quantifier": "all interleavings of the two threads and all moments of SIGINT", "why_tests_cant": "unboundedly many interleavings", "anchors": ["main.py:Test.run", "main.py:Test.stop", "src/utils/cli.py:CLI.main", "src/utils/cli.py:CLI.exit"]}
{"id": "C93", "title": "What a score says", "statement": "The score of a single value is 1 for a target and otherwise the most targets per machine that one extraction, division or split of it makes; the score of a state is the square of the number of targets that are sources already, plus the mean over the other sources' sums of that worth per merger; no other number fits this description.", "quantifier": "all belt speeds in increasing order, all targets, all positive sources in order", "why_tests_cant": "a wrong candidate or a missed candidate changes the score only for some values", "anchors": ["src/score.py:ScoreCalculator.compute", "src/score.py:ScoreCalculator.compute_individual", "src/score.py:ScoreCalculator.score_split", "src/utils/math.py:all_sums"]}
{"id": "C94", "title": "The announced size bounds what is built", "statement": "When the program announces solutions of size <= n, the network that it later builds from each of them (targets attached, divisions, extractions and merges expanded) has at most n splitters and mergers; it has exactly n, less one for every node where an odd number of belts leads back and an even number arrives, since the last merger then has a free input.", "quantifier": "all accepted requests for positive throughputs, all searches, all solutions", "why_tests_cant": "price and construction are far apart in the code, and the difference only shows for some shapes of trees, belts over the limit and merges in front of loops", "anchors": ["src/solver.py:solve", "src/node.py:group_values", "src/tree.py:attach_leaves", "src/node.py:expand_roots", "src/cost.py:divide_cost", "src/cost.py:extract_cost", "src/cost.py:merge_cost"]}
{"id": "C95", "title": "A request with few loops is built completely, exactly and at the announced size", "statement": "If in a solution at most three belts will lead back to any node, at most three to any node below an extraction, and none of them carries more than the limit, then expand_roots finishes: nothing is left pending, the leaves of the network are the requested targets, the requested flows are the only ones it can carry, no belt carries more than the limit unless a source does, and it has exactly the announced number of machines, less those that loops save.", "quantifier": "all accepted requests for positive throughputs (whole numbers, or solutions without conveyors of a given speed), all searches, all solutions", "why_tests_cant": "every part of the program takes part: parsing, loading, search, attaching, expansion and the cost tables; a test sees single requests", "anchors": ["src/solver.py:load", "src/solver.py:solve", "src/tree.py:attach_leaves", "src/node.py:expand_roots", "src/cost.py:divide_cost", "src/cost.py:extract_cost"]}
{"id": "C96", "title": "Small requests are always built completely, exactly and at the announced size", "statement": "If the conveyors carry at least 20, every accepted request whose total, after cancelling and in whole units, is at most 8 is built from every solution the search keeps: expand_roots finishes with nothing pending, the leaves are the requested targets, the requested flows are the only ones the network can carry, no belt carries more than the limit unless a source does, and it has exactly the announced number of machines, less those that loops save. With 9 this fails.", "quantifier": "all accepted requests for positive throughputs with a total of at most 8 units, fractions included, all searches, all solutions", "why_tests_cant": "there are infinitely many such requests (fractions, cancelled values, any spelling) and the search makes random choices; a test sees single runs", "anchors": ["src/solver.py:load", "src/solver.py:solve", "src/tree.py:attach_leaves", "src/node.py:expand_roots", "src/cost.py:divide_cost", "src/cost.py:extract_cost"]}
{"id": "C97", "title": "Every small request is answered with a correct network", "statement": "If the conveyors carry at least 20, every request for positive throughputs of which something remains after cancelling, with a total of at most 8 in whole units, is loaded (unless it is one of the three tiny shapes for which load raises), the search ends with at least one solution whatever the scores and random choices, and every solution it reports is expanded to a complete network that carries exactly the requested flows with the announced number of machines, less those that loops save.", "quantifier": "all texts, all such requests, fractions included, all scores and random choices, all reported solutions", "why_tests_cant": "infinitely many texts and fractions, and random choices; the claim covers parsing, loading, search, attaching and expansion at once", "anchors": ["src/solver.py:load", "src/solver.py:best_size_upper_bond", "src/solver.py:solve", "src/tree.py:attach_leaves", "src/node.py:expand_roots"]}
{"id": "C98", "title": "The label drawn at a machine is the flow through it", "statement": "In the network that is drawn for a solution every machine is labelled with its value divided by the unit. Once expansion has left nothing pending, the label of every machine that expansion made, and of every node at which nothing but merging was pending, is the flow that passes through it, where the flows are determined by the network alone. A node that was divided or extracted from keeps the label it had, what enters it, and what passes through it is that value times the number of leaves of the splitter tree over the number of parts, as the spare belts are led back.", "quantifier": "every solution network with consistent values, of any size; every request and every solution the search keeps", "why_tests_cant": "unbounded networks and values; a merger is labelled by what its three belts come from at the moment of merging, while merging also changes how these split; whether the label stays right depends on which belts are merged in which round", "anchors": ["src/node.py:populate", "src/node.py:expand_merge", "src/node.py:merge", "src/node.py:expand_divide", "src/node.py:expand_extract"]}
{"id": "C99", "title": "The pictures that are saved show networks that do what was requested", "statement": "After a run every solution is saved as two pictures: the solution itself, and the network of splitters, mergers and conveyors it stands for. Read as a network, from its arrows alone, the second picture has entries that take in the requested sources and ends that bring the requested targets (after balancing and cancelling), the flows are conserved at every machine and no other flows are possible; every machine drawn is reached from an entry and no name is drawn twice. The labels tell what passes through each machine, except where the solution divides or extracts, where the label is that of the first picture.", "quantifier": "every request and every set of solutions that the search keeps; for totals of at most 8 every request that does not leave four targets of an eighth of the total, from its text to the pictures", "why_tests_cant": "the chain from text to picture runs through parsing, search, grouping, attaching, expansion and drawing, over unbounded requests and search orders; that flows are the only possible ones is a statement about all assignments", "anchors": ["src/tree.py:save", "src/node.py:save", "src/node.py:populate", "src/solver.py:conclude", "src/node.py:expand_roots", "src/tree.py:attach_leaves"]}
{"id": "C100", "title": "The picture of a solution before expansion is an outline of what was requested", "statement": "Of the two pictures saved for a solution, the first shows how the sources are divided and merged to the targets: names are drawn once, labels are positive, arrows lead to greater levels (so there are no loops), the machines that no arrow leads to carry the requested sources and those that no arrow leaves carry the requested targets (after balancing and cancelling, in the unit the request was scaled to), and every other machine either divides its label among machines that get nothing else, or hands all of it to one machine whose label is the sum of what is handed to it.", "quantifier": "every request, search order, interruption and every solution kept; no conditions on belts, capacities or losses in expansion", "why_tests_cant": "the chain from text to picture runs through parsing, scaling, grouping, search, attaching and drawing over unbounded requests and search orders", "anchors": ["src/tree.py:save", "src/node.py:save", "src/node.py:populate", "src/solver.py:conclude", "src/tree.py:attach_leaves"]}
{"id": "C101", "title": "Each node of a network is drawn once", "statement": "The graph handed to the drawing of a saved network has exactly one node for each node of the network, labelled with its value and at its level, and as many edges between two of them as the network has belts.", "quantifier": "every network that can be saved, every choice of ids", "why_tests_cant": "nodes are identified by a text that holds three random digits, so that a test passes or fails by chance; the number of nodes is unbounded", "anchors": ["src/node.py:populate", "src/node.py:repr_node_id", "src/node.py:save", "config.py:short_repr"]}
{"id": "C102", "title": "Pictures are laid out by levels", "statement": "When a network is saved, the nodes of the picture are grouped by level: each is in the group of its level and in no other. If a node has no level the grouping raises and nothing is written; this never happens for a solution, neither before nor after expansion.", "quantifier": "every network, every choice of ids; every request, search order, interruption and every solution kept", "why_tests_cant": "the levels of the expanded network come from unbounded sequences of expansions and level updates; exceptions in saving are caught and only printed", "anchors": ["src/node.py:save", "src/node.py:expand_roots", "src/node.py:populate", "src/tree.py:save"]}
{"id": "C103", "title": "Every request is answered", "statement": "Every accepted request of positive throughputs in which no target exceeds the limit of a belt is answered: a run that is not stopped ends with at least one solution. Such a request can always be served by cutting and merging belts within the limit.", "quantifier": "every configuration with sorted speeds, every accepted request, every score function, random choice and duplicate test, every run that is not stopped", "why_tests_cant": "no answer is only seen after an exhaustive search, and whether there should have been one is not known to the program", "anchors": ["src/solver.py:load", "src/solver.py:solve", "src/solver.py:merge_sims", "src/solver.py:extract_sims", "src/utils/solver.py:compute_cant_use"]}
{"id": "C104", "title": "The text of a saved file loses nothing", "statement": "Loading the text that `wrap` writes for a node rebuilds the same graph, with the same ids, values, levels, links and pending expansions. Different data have different texts. A text can be read exactly if every value that is still to be extracted or split off is a whole number (others are written as a call of Fraction, which literal_eval refuses), and this holds for everything the program writes for its solutions. A text of which the end is missing is refused wherever it is cut off; white space after the end makes no difference, and anything else that Python would not read on from is refused.", "quantifier": "every graph of nodes with ids of 128 bits; every list of solutions of every search and every amount of fuel; every beginning of every text", "why_tests_cant": "all characters of all texts; a test loads a few files and would not meet a fraction in a pending expansion", "anchors": ["src/node.py:Node.wrap", "src/node.py:Node.unwrap", "src/node.py:Node.expand_from_code", "src/tree.py:save"]}
{"id": "C105", "title": "How deep the traversals nest their calls", "statement": "Python raises RecursionError when calls are nested too deep. With room for `limit` nested calls of the same method, populate, wrap and expand_roots give the result they give without a bound, or raise. populate and wrap give their result if every path of different nodes from a root has at most `limit` nodes, and raise if some node can only be reached by `limit` links or more. expand_roots gives its result if there are at most `limit` nodes in the end, and raises if some node, before from the children of the roots or afterwards from the roots, can only be reached by `limit` links or more. For a chain of n nodes exactly n nested calls are needed, so no bound is enough for all graphs. For a zigzag of n nodes, in which every second node is a source leading to its neighbours, save writes the picture but no data for every bound from 2 to n - 1. To draw a solution of a search with its targets attached, as many nested calls are enough as its size and the number of binary digits of the flow through it together.", "quantifier": "for every bound, every graph (with cycles too), every root list, every pending expansion, every solution of every search", "why_tests_cant": "The graphs of a test are far smaller than the bound; the claim is about all graphs and all bounds.", "anchors": ["src/node.py:64-90", "src/node.py:142-151", "src/node.py:204-236", "src/node.py:501-549", "src/node.py:539-583"]}
{"id": "C106", "title": "Comparing solutions looks at every way through the network", "statement": "to_nx_graph, which == on trees uses, keeps no record of the nodes it has visited. It adds exactly one edge for every way down of at least one step from a root, so nodes that can be reached in several ways are entered several times. With room for n nested calls add_edges returns exactly if every way down has fewer than n steps; if a cycle can be reached it raises whatever the room. On the trees of a search it returns: no way down there has more steps than moves were made, and those are at most the size of the tree. The number of ways is not bounded by the size of the network: k divisions into two, each merged again, give 3k + 1 nodes and 4 * 2^k - 4 added edges.", "quantifier": "for every graph (with shared nodes and cycles), every bound on nested calls, every tree a search can reach, every k", "why_tests_cant": "Small networks have few ways down, so the repeated visits do not show.", "anchors": ["src/tree.py:29-41", "src/tree.py:43-45", "src/solver.py:293"]}
{"id": "C107", "title": "Sizes are never below what the numbers of belts require", "statement": "A splitter or merger joins at most three belts to one or one to three, so it changes the number of belts by at most two. The sizes the search works with respect that: dividing into d gets a cost r such that d <= 2r + 1; in every tree of a search the numbers of given sources and of current sources differ by at most twice the size, and the network has at most as many nodes as given sources and three times the size together. So no solution has a size below half the difference between the numbers of sources and of targets that the search is given, and none is announced with a size (which counts the divisions into equal targets too) below half the difference between the numbers of requested sources and targets, including the belt that is added when the totals differ, whatever the throughputs.", "quantifier": "for every value and divisor, every configuration of belt speeds, every tree a search can reach, every solution", "why_tests_cant": "The cost of a division is computed from tables by a greedy choice of pruned subtrees; a choice that prunes too much shows only for particular divisors.", "anchors": ["src/cost.py:35-59", "src/cost.py:121-146", "src/cost.py:148-158", "src/solver.py:262-300", "src/solver.py:40-76"]}
{"id": "C108", "title": "Requests that say the same are loaded alike", "statement": "load depends only on what remains of a request after balancing the totals and cancelling equal values: if the same remains of two requests, load returns or raises the same and leaves the same attributes and the same objects. So the order in which throughputs are written makes no difference, nor does adding the same throughputs to both sides, nor writing down the belt that load adds when the totals differ. Moreover, if no whole number above 1 divides all throughputs of the loaded problem, dividing all throughputs of the request by a whole number changes only the name and the unit of the loaded problem: the search passes the same states, with the same belt limit. And nothing of an earlier request survives an accepted one: what load returns or raises and the objects it makes never depend on the attributes before the call, and when it accepts, neither does any attribute after it. Nor do the nodes that earlier requests have left: whatever objects there are, load returns or raises the same and hands the search the same problem, sources, sizes, name and unit.", "quantifier": "for every accepted request (values of any sign), every state of the solver's attributes and objects, every configuration, every divisor", "why_tests_cant": "The statement compares all pairs of requests that say the same.", "anchors": ["src/solver.py:20-92", "src/utils/fractions.py:1-6"]}
{"id": "C109", "title": "Some answers cannot be beaten by any network", "statement": "In every network of splitters and mergers with at most three belts on a side, with or without loops and whoever built it, the numbers of belts at the two ends differ by at most twice the number of machines. So if the announced size of a solution is half the difference between the numbers of requested sources and targets, rounded up, no network that delivers the request has fewer machines, not only none that the permitted moves lead to; and then the program builds exactly as many machines as announced (for the solutions C95 covers).", "quantifier": "for every finite network (with cycles), every assignment of flows, every accepted request of positive throughputs, every solution", "why_tests_cant": "The claim compares the result with all networks there are.", "anchors": ["src/cost.py:88-158", "src/solver.py:load", "src/solver.py:solve", "src/tree.py:attach_leaves", "src/node.py:238-538"]}
