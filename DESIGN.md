# Formal model of lakazatong/satis in Lean 4 — design

## What is modelled

The model lives in `lean/Verif/`. It is a shallow embedding: one Lean function per Python function, branch by
branch, exceptions as values (`Except PyErr`), mutation as returned state. Every definition cites file and lines.

| Python | Lean module | notes |
|---|---|---|
| `src/cost.py` | `Verif/Cost/Model.lean` | all functions |
| `src/utils/fastlist.py` | `Verif/Utils/FastList.lean` | overridden methods |
| `src/utils/other.py`, `math.py`, `solver.py`, `fractions.py` | `Verif/Utils/*.lean` | all functions except debug printing |
| `src/node.py`, `src/tree.py` | `Verif/Graph/*.lean` (heap of node objects; `Model`: construction, moves, copies, `Tree`; `Iso`: `to_nx_graph`, `__eq__`; `Group`: `group_values`; `Attach`: `attach_leaves`; `Expand`: expansions; `Traverse`: recursive traversals, `expand_roots`; `Depth`: the same with a bound on nested calls; `Save`: what is handed to the drawing and the `.data` file; `Canvas`: the graph that is drawn, with nodes named by their text) | the layout and the image (`pygraphviz`), and `repr` but for what the text of a node shows, not modelled |
| `src/solver.py`, `src/score.py` | `Verif/Solver/*.lean` (`Model`: search, `Score`: scores, `Load`: `load` and its caller in `CLI.main`, `Plan`: the plan behind the initial bound) | search loop with an oracle for random choices, scores and the moment of `stop()` |
| `tests/combinations.c` | `Verif/Side/Combinations.lean` | C memory: arrays of fixed length, accesses outside and signed overflow are errors |
| `tests/merger_simulation.py` 75-209 | `Verif/Side/Merger.lean` | classes `Input`, `Merger`, `generate_simulations`; printing left out. The script never gets here: line 64 is `exit(0)` |
| `tests/merger_simulation.py` 1-62 | `Verif/Side/RandomMerger.lean` | the random simulation; the choices are an arbitrary function |
| `tests/merger_simulation.py` 211-240 | `Verif/Side/ChunkFiles.lean` | `save_formatted_simulations`; a file is the list of texts written, its size an arbitrary function of them |
| `tests/show.py` | `Verif/Side/Show.lean` | all of it; `float` is an arbitrary function |
| `tests/gpt.py` | `Verif/Side/Pairing.lean` | `remove_pairs_original` and the comparison of `benchmark`, without the times |
| `tests/generate.py` 5-31 | `Verif/Side/Speeds.lean` | the closure loop; divisions as divisibility; drawing left out |
| `test.py` 297-534 | `Verif/Side/Greedy.lean` | the greedy solver and its check; costs of extractions and the order of a set are parameters, printing left out; `src/tree.py` holds copies of these steps |
| `test.py` 257-276, 649-667 | `Verif/Side/Looping.lean` | the check of looped-back branches, `compute`, `count_merges`; exact fractions |
| `tests/analyze_merger.py` | `Verif/Side/Colours.lean` | all of it; a video is the list of pixels at the chosen point; the reading loop is not reached, line 52 is `exit(0)` |
| `main.py` 16-40 | `Verif/Run/Trial.lean` | the example backend under the same `CLI` |
| `tests/sim.py` | `Verif/Side/Sim.lean` | all of it; `extract_cost` is a parameter that may raise |
| `src/utils/cli.py`, `run`, `stop` of `src/solver.py`, `config.py` | `Verif/Run/*.lean` (`Model`: the two threads and the signal handler, one access to a shared flag per step, arbitrary programs in place of `solve` and `conclude`; `Session`: the prompt loop around the runs, with arbitrary lines and an arbitrary `load`; `Files`: names written and cleared, the command history) | `prompt_toolkit`'s history and prompt as their documented behaviour: `prompt` turns SIGINT into `KeyboardInterrupt`; a signal during the handler is ignored |

Directory layout: `Model` files hold the transcription of the code, `Spec` files hold the small independent
specifications used in the statements, other files hold lemmas, `Verif/Props/*.lean` hold only the property theorems
and the non-vacuity examples.

## How it is modelled

* Python `int` is `Int` (or `Nat` where the code only ever passes non-negative values and the guard is stated);
  `Fraction` is `ℚ`; Python's `//` is floor division.
* Python objects of class `Node` live in a heap (`Heap`), references are addresses, `node_id` is a separate field; so
  aliasing, copying and in-place mutation are explicit.
* Recursive traversals and saving take fuel; `Graph/Fuel.lean` shows that a result other than "out of fuel" does not
  depend on it (`Settles f r`: every large enough fuel gives `r`). The text of the `.data` file is modelled first as
  the list of tuples (`Graph/Save.lean`) and then as characters (`Graph/DataText.lean`; C104 relates the two).
* `while` loops take fuel or a termination measure; where fuel is used a theorem shows that enough fuel exists and that
  the result does not depend on it.
* Randomness (`random`, `uuid4`), the score used to order the queue and the instant at which another thread clears
  `self.solving` are parameters over which the theorems quantify.

## Trusted base

* Lean 4.33.0's kernel and the three standard axioms `propext`, `Classical.choice`, `Quot.sound` (checked with
  `#print axioms`; no `sorry`, no `native_decide`, no `bv_decide`, no own axioms).
* The transcription from Python into the model (cited line by line); nothing ties it mechanically to the code.
* Python's runtime semantics for ints, fractions, lists, dicts (insertion ordered), sets, generators, `bisect.insort`
  (insert right), `sorted` (stable), `uuid4` (never repeats), `repr` of ints, strings, lists and tuples and the part
  of `ast.literal_eval` and `uuid.UUID` written out in `Graph/DataText.lean`.

Not modelled: `pygraphviz`/`networkx` internals (isomorphism is modelled as its mathematical definition; an `AGraph` as nodes named by
`str` and a list of edges), file system and
terminal I/O, floating point rounding (scores are exact rationals), `treelike` (only its hash-based `__eq__`, quoted in
`test.py` 47-66, and which attributes the text of a node shows), performance, `Tree.quick_solve` and its helpers (dead code that refers to undefined names), and the
parts of `test.py` and of `tests/` that are not in the table.

## Plan per property

* **C01** Splitter-tree shape search is sound: Transcribe the double loop as folds; prove the loop invariant (best so far over the scanned prefix).
* **C02** Splitter-tree shape search is globally optimal: Box optimum from the loop invariant; every pair outside the box is dominated by one inside; tie analysis by parity/mod 3.
* **C03** Tree tables count splitters and leaves: Inductive complete mixed tree as specification; induction on n, m.
* **C04** Branch selection terminates, is exact and uses the fewest branches: Strong induction on l; greedy optimality by an exchange argument on a divisor chain.
* **C05** Per-level branch plan is exact and fits: Same induction, dictionary as association list; positions of a level as a specification of 'below a selected branch'.
* **C06** merge_cost is the true minimum number of mergers: Reachability relation of merger steps as specification; induction both ways.
* **C07** Every move has a strictly positive cost: Convexity of splitters/leaves ratio along the chain.
* **C08** divide_cost follows one uniform formula: Case analysis on find_n_m_l optimum (m = 0 only for d in {1,2,4}); negation with witness where the shortcut ignores the limit.
* **C09** Over-limit surcharge is charged exactly when the belt is over the limit: Compare the two formulas; witness for the disagreement, one-directional theorem.
* **C10** FastList behaves as an ordered set: Invariant by induction over operations, refinement to a duplicate-free list.
* **C11** remove_pairs is exact multiset cancellation: Counting lemma per value.
* **C12** Scaling to integers is exact and minimal: lcm lemmas.
* **C13** Decimal classification is correct: Factor out 2 and 5; spec: least k with den | 10^k.
* **C14** Decimal literals denote the right rational: Character-level parser model; error bound against truncated expansions tends to 0.
* **C15** Problem names parse back to the same problem: Printer/parser round trip by induction on digits and on groups.
* **C16** Problem names are single path components and identify the problem: Character invariants + injectivity from C15.
* **C17** Linear combinations are solutions: Model the generator with its shared mutable list; false as stated: witness; completeness/prefix theorem.
* **C18** all_sums enumerates exactly the subset sums: Invariant of the dictionary fold.
* **C19** The gcd filter never rejects a needed value: gcd lemmas.
* **C20** Parsing user input is total and rejects cleanly: Outcome type of load; frame theorem.
* **C21** Loading balances flow: Sum lemmas over insort and remove_pairs.
* **C22** Loaded problem is the requested problem: Composition of C11, C12, C25.
* **C23** Loading never trips its own assertion: Counting lemma.
* **C24** Every balanced positive problem can be loaded: False as stated: witness (2 to 1 1) and exact characterisation.
* **C25** Grouping targets is lossless: Fold invariant over the levels; termination by length.
* **C26** Every move conserves flow: Heap-level postconditions.
* **C27** Search states are well formed: Invariant over the search loop.
* **C28** Predicted states are the real states: Sorted permutations are equal.
* **C29** Solution graphs are acyclic and layered: Invariant over the search loop.
* **C30** Copies are independent and faithful: DFS copy invariant, framing.
* **C31** Copies keep each node's past: False as stated: witness after two copies; exact statement of what is kept.
* **C32** The search never revisits a state along a branch: Invariant.
* **C33** Reported solutions are correct: Invariant over the search loop.
* **C34** Reported solutions share the best size found: Invariant.
* **C35** The search terminates: Depth bounded by best_size thanks to C07; well-founded measure on the queue.
* **C36** Stopping is honoured: Oracle for the flag; false as stated: witness for the window between loop test and dequeue; theorem for the rest.
* **C37** No solution means none reachable: Closure argument over explored states.
* **C38** The best size is optimal among permitted move sequences: Same with cost; partial because of the solutions' pasts.
* **C39** A stop request during a run always takes effect: Interleaving state machine; false as stated: witnesses; theorem for the solving and concluding windows.
* **C40** Attaching the target groups yields the requested leaves: BFS invariant over forests.
* **C41** Each saved solution is independent of the others: False as stated where a group of more than three targets is inside of another group: two witnesses (saving does not end; a picture differs), and a theorem that saving does not end if the number of its members is not a product of twos and threes: ways over nodes at which only merges and divisions are pending are kept by expansion, a division that sends something back makes a circle, and attaching follows it (`Graph/Endless.lean`); and one that for any number over three the next solution is attached to nodes made while the one before was expanded: a division by four or more puts new nodes below its node, and no later expansion takes all of them away (`Graph/Ousted.lean`); theorem otherwise (both networks; the expanded one up to the ids of new nodes, by running the expansion in two heaps side by side, `Graph/Rename.lean`). Nodes at which nothing is pending are not changed by expanding what is above them, apart from levels and from the belt that leads to the topmost (`Graph/Calm.lean`, `Graph/CalmLevels.lean`), so that attaching them to the next solution makes what it would have made first (`Graph/Twin.lean`, `Graph/Mount.lean`).
* **C42** Expanding a division yields a correct splitter network: Width recurrence of the levels; heap-level layer invariant.
* **C43** Expanding an extraction yields a correct splitter network: Same with three routes.
* **C44** Expanding a merge yields a correct merger network: Distinct inputs: theorem; repeated inputs: witness, and the exact condition (`Parted`, `Graph/BeltSpec.lean`) under which no belt is lost.
* **C45** Expanded networks respect the conveyor limit: False as stated: witness; steady flows are unique, so an exact criterion for divisions; theorems for extractions and merges.
* **C46** Expansion leaves every node with a level: False as stated: witness; theorem below the limit, and the converse above it where part of the flow is sent back: the new node without a level can be reached over nodes at which nothing but merges is pending, and such a way is never cut (`Graph/Lane.lean`, `Graph/LaneExpand.lean`, `Graph/LaneWalk.lean`), so that the pass over the levels raises, unless the node was never visited. For requests: a solution saved first with a root over the limit ends the program with an exception.
* **C47** Splits deliver the intended flows: Linear steady-state equation; asymmetric link witness.
* **C48** Saved data round-trips: Graph-level round trip.
* **C49** Saved data is complete: False as stated: witness; theorem for connected solutions.
* **C50** Duplicate detection only drops equal solutions: False as stated: witness; relation properties.
* **C51** Cleaning removes exactly the solver's own files: Regex as a matcher; all generated names match; witness for an over-match.
* **C52** Command history has no duplicates and is most-recent first: Invariant.
* **C53** Needed sources are protected: Counting lemma + generator filter.
* **C54** Merges respect the conveyor limit: Invariant. Every value is also at most the sum of the sources (C54_values_within_total).
* **C55** Limits are applied to real flows: False as stated: witness; theorem for ratio 1.
* **C56** Solution test is exact: Induction.
* **C57** Traversals visit each reachable node exactly once: Generic DFS-with-seen theorem.
* **C58** Scores are well defined and bounded: Rational model of the score; `C58_run_scores` joins it with the rounds of a run from what `load()` makes.
* **C59** The initial size bound is attained: Constructive plan.
* **C60** The backend flag always comes down: Interleaving state machine.
* **C61** A request is answered: Composition of C22, C33, C35 and C40.
* **C62** The files of one run do not overwrite each other: Decimal names are injective.
* **C63** A move costs what its expansion builds: Count nodes and belts depth by depth while the network is built; compare with the cost formulas of C08/C09; witnesses over the limit. Over the limit, the exact difference: the belt that comes back is spread over the nodes below the root, so count the belts of each of them (`Net.beltsOver`, `Net.machinesOver`); no branch right below the root loops, because a smaller tree would do (`bestShape_spare`); a parity argument bounds the difference by one.
* **C64** The prompt loop handles every line and ends exactly on request: Invariant of the session, the run model embedded step by step; progress from C60.
* **C65** Ctrl+C during a run stops the run, not the program: False (race with the last step of `run`; a signal during `load`); exact condition.
* **C66** The expanded network as a whole delivers what was asked for: False (9 to 8 1: belts get lost; 36 to 33 1 2: a pending extraction is skipped). Where merging never separates belts from the same machine (`Roomy`, stated with the splitters the belts come from, `Graph/PlacesSpec.lean`, and the condition `Parted` of C44): an invariant of the walk over networks that are expanded in part (`Graph/Deliver.lean`, `DeliverJoin`, `DeliverStep`, `DeliverVisit`, `DeliverWalk`): each visit keeps a consistent flow. The walk reaches every node with something pending if no belts to what is extracted are merged (`Light`; belts to what is left come last in every splitter, so the loops over its outputs have passed the others when they are merged); otherwise that nothing is pending at the end is a hypothesis, which can be read off the result. `Graph/CheckSound.lean` checks the hypotheses of concrete networks by computation. The flows are the only ones (`Graph/DeliverUnique.lean`): a difference of two flows would have to stay for ever in a part of the network where all machines split evenly, and such a part could not take in anything; nodes that do not split evenly lie in no loop (`Mixed.rank`).
* **C67** What the user asked for is what the built network delivers: Every solution, with its targets attached, satisfies `Sound` (`Graph/PlainSpec.lean`), the structural half of what C66 needs: an invariant of the moves (`Solver/Jobs.lean`), read off the heap (`Solver/SoundFacts.lean`). With room for the belts (`Roomy`), and no fractions in the request or no conveyors of a given speed in the solution (`Even`; such flows can be rescaled), C66 applies. False with fractions otherwise (61.5 to 30 31.5): whether a part can be taken off by a conveyor of its speed is decided in the scaled unit.
* **C68** The C routine lists every combination exactly once, inside its arrays: Explicit memory with checked accesses (`Side/Combinations.lean`). Invariant of the stack: frames below plus values behind the start of the top frame never exceed n; recursion on r - index; rows stored are bounded by the number of sublists.
* **C69** The recursive C routine lists the same combinations: Same memory model, shared array returned by every call. Witnesses for the failures; what does hold by recursion on r - index with the number of complete combinations tried.
* **C70** binomial_coefficient is the binomial coefficient: Pascal's rule as the invariant of the in-place update, from right to left.
* **C71** The merger simulation keeps its books: Invariant of one tick (`Side/MergerFacts.lean`): who is served, what arrives; waiting time of every input with a positive share for termination (`Side/MergerRun.lean`).
* **C72** No input of the merger hands on more than it received: Stock of each input: buffer plus handed on against arrivals, following the reordering of inputs and buffers.
* **C73** The two ways of removing pairs agree: Count of each value through the loop over the copy; `removePairs_count` for the method in use.
* **C74** The graph of belt speeds is complete: Nodes before old_last are closed under the operations; the list has no duplicates and is bounded, so the rounds end. The stored graph_data.json is reproduced as an example.
* **C75** Grouping equal values can be undone: Each division undoes the run it replaced; induction over the scan and the rounds (`Side/GreedyFacts.lean`).
* **C76** Each step of the greedy solver accounts for its targets: `Accounts` as specification of one step; the merge needs the exactness of the enumeration of combinations, which holds for ascending values only.
* **C77** What the greedy solver returns passes the check of run_problem: The scaled sums agree, so removing pairs cannot leave one side empty; the single remaining target is the sum of the remaining sources.
* **C78** Looped-back branches never overload the first splitter's outputs: Fewer than half of the leaves are looped back (`findNML_loop_lt`).
* **C79** count_merges counts the mergers of the looped-back branches: Closed form of the loop against `merge_cost(l + 1, 1)`, which is the true minimum (C06).
* **C80** The simulated solver ends on every request: Measure: the sum of the lengths; the inner grouping loop by C75.
* **C81** Each step of the simulated solver takes the cheapest candidate: One lemma on keeping the first cheapest candidate; combinations lists every subset.
* **C82** The simulated solver serves every positive request: Follow the difference of the sums; find what unbalances it.
* **C83** The merger shares its output between two belts: One invariant for each kind of load, closed by the ticks of one period.
* **C84** The relation the simulations are checked for: From C83: an odd output cannot be shared evenly.
* **C85** The random simulation of a merger ends: A strictly increasing sequence of times is a sublist of the sorted moves; each move of one input is followed by one of the output.
* **C86** The demonstration of a looped-back belt ends: Closed formula for the flows after k rounds.
* **C87** Chunk files hold all simulations once: Invariant of the loop over the closed files and the open one; the specification determines the files.
* **C88** Which words are numbers: A grammar in Utils/LineSpec.lean that does not mention the parser; soundness and completeness in Utils/Lines.lean.
* **C89** Which lines are requests: From C88 and the facts about splitting at white space and at to.
* **C90** The merge step of the greedy solver finds the cheapest merge: From the completeness of the enumeration of combinations in ascending order (C17).
* **C91** The items of a video are read correctly: Compare squared distances; a video as empty stretches and items; the run filter by induction over the parts.
* **C92** No Ctrl+C is lost with the example backend: Interleaving state machine as for C39 and C60; a rank that every effective step lowers.
* **C93** What a score says: The fold of `better` gives the greatest candidate; the dictionary of all_sums is described exactly (C18_counts).
* **C94** The announced size bounds what is built: A tally of the machines there will be is kept by every step of the expansion (Graph/Tally, DeliverWalk); at the start it is the sum of the fees of the nodes (Solver/FeesOwn), which is the size of the solution (Solver/Fees); at the end it is the number of machines.
* **C95** A request with few loops is built completely, exactly and at the announced size: Few belts per node cannot be separated by merging (Graph/Modest), so the hypotheses of C66, C67 and C94 hold; flows of networks that only split evenly can be rescaled.
* **C96** Small requests are always built completely, exactly and at the announced size: No node of a tree of the search carries more than the sources together (C54), so every division and extraction is one of finitely many, for which the kernel evaluates the belts that merging may separate (Graph/Petty); then C67 and C94.
* **C97** Every small request is answered with a correct network: C24 for loading, C35 for the end of the search; C38 reduces finding a solution to permitted moves, which C59 gives where everything may be merged, and a checked list of moves (Solver/PettyPlans) elsewhere; C96 for what is built.
* **C98** The label drawn at a machine is the flow through it: In a round of `expand_merge` all belts from the same machine should go to the same merger (`Together`, `Graph/BeltSpec.lean`); if all merges are of that kind (`Tidy`, `Graph/PlainSpec.lean`), each round labels its mergers with the sums of what their belts carry. The invariant of C66 carries along what each pending job is charged with (`Pends`, `charge`, `Labelled` in `Graph/Deliver.lean`). False otherwise (1 taken from 145: a merger of three belts that lead back carries 17 and is labelled 37/2). Full for requests of a total of at most 8 (`C98_small_labels`).
* **C99** The pictures that are saved show networks that do what was requested: `Shows` (`Graph/PictureSpec.lean`) reads a network from the arrows. Saving first sets the levels of the roots to 0, which changes nothing that expansion depends on (`Graph/Relevel.lean`); the network drawn is the expanded one with ids for addresses (`Renamed`, `Graph/Picture.lean`), and C66/C67/C98 speak of that one. Several solutions share the nodes below grouped targets: attaching and expanding one leaves these nodes as they were, apart from the parents of the members of the outermost groups, if nothing is pending at them (`Graph/Calm.lean`, `Graph/Twin.lean`), so that every later solution is saved from a copy of the heap it would have been saved from alone (`Graph/Copies.lean`, `Graph/Again.lean`). For small requests C96/C97 discharge all conditions on the solutions, and a group of more than three can only be inside of another one where four targets are an eighth of the total (`C99_small_pictures`).
* **C100** The picture of a solution before expansion is an outline of what was requested: `Outline` (`Graph/OutlineSpec.lean`) reads the picture by its labels and arrows. The network with the targets attached is `Sound` (C67_solutions_sound); its drawing is it with ids for addresses (`Sound.outline`, `Graph/Outline.lean`). Several solutions: C41_independent_partial.
* **C101** Each node of a network is drawn once: `Graph/Canvas.lean` models the graph of `pygraphviz` with nodes named by what `str(node)` shows. False as stated: two nodes that look the same and whose ids end with the same three digits are drawn as one. Exact condition, and the share of ids for which it fails.
* **C102** Pictures are laid out by levels: `ranks` over the graph of `Graph/Canvas.lean`; if `expand_roots` raises nothing, the passes over the levels have seen a level at every node that can be reached (`expandRoots_some`).
* **C103** Every request is answered: a run has a solution exactly if some play within the initial bound reaches the targets (C34, C37). Serving is specified by cutting and merging lists of belts (`Serves`). `Solver/PlanMore.lean` plays the plan of C59 in more situations than `PlanFits`. Not every request is answered: groups become single belts that may exceed the limit, and sources that have the value of a group force extractions that the initial bound did not count.
* **C104** The text of a saved file loses nothing: Character-level model of `str` of the tuples and of `literal_eval`, `UUID` and `unwrap`; reading inverts writing; what is refused; an invariant of expansion for the arguments. Texts that are cut off or go on: what is read does not depend on what follows it (`Graph/DataTextCut.lean`).
* **C105** How deep the traversals nest their calls: The traversals again with at most `limit` frames (`Graph/Depth.lean`); `none` stands for RecursionError. The frames on the stack are a path of different nodes, of which each was marked before the next was entered, so the frames are no more than the marks; a node entered under k frames is reached by k links. Both bounds meet on chains. In a zigzag of sources and their children drawing the picture takes two frames and gathering the data, which also follows parents, as many as there are nodes: `save` then writes the picture without the data. In a solution with its targets attached a path goes down one level with each move and then halves the flow (`Props/DepthSolution.lean`).
* **C106** Comparing solutions looks at every way through the network: Ways down as lists of child numbers (`Graph/Descent.lean`); the fuel of `addEdges` is the number of nested calls; induction on it. The doubling is proved for the real `divide` and `merge`. For the trees of a search the levels bound the steps.
* **C107** Sizes are never below what the numbers of belts require: The pruned subtrees have fewer leaves than the tree, so their binary layers together are smaller than its own (`two_tot_Sat`); that bounds the saved splitters. Then one move at a time, on nets, and for the grouped targets by counting the nodes of the forest (`Props/Belts.lean`).
* **C108** Requests that say the same are loaded alike: What remains is determined by the request (`Remains.eq`), and the rest of `load` uses nothing else. For the unit: the common denominator of the divided values divides k times the old one, and the quotient divides all the integers (`integers_div`, from C12). `C108_fresh`, by cases along `load`: an accepted request overwrites every modelled attribute (`score_cache` and `scoreCalculator` are not modelled). `C108_objects`: `group_values` is simulated by a function of the values alone (`groupLoopV` in `Solver/GroupPure.lean`, used only in that proof).
* **C109** Some answers cannot be beaten by any network: Count the links of the network once as children and once as parents (`Props/Fewest.lean`); nothing of the code is involved in `C109_machines` and `C109_optimal`. The built network comes from C95.
