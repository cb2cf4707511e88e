import json
P=[]
def p(i,t,s,q,w,a): P.append(dict(id=i,title=t,statement=s,quantifier=q,why_tests_cant=w,anchors=a))
p("C01","Node flags are independent","Setting one node flag (exact, relaxed, marked, cutset, deleted, pruned-by-barrier) to a value makes the corresponding query return that value and changes no other raw flag; is_exact() holds iff the exact flag is on and the relaxed flag is off.","every 8-bit flag word, every flag and polarity, every sequence of set operations","the interaction of six flags over arbitrary set/clear histories is exponential; tests sample a few histories",["src/mdd/node_flags.rs: NodeFlags::set,test,add,remove,is_exact"])
p("C02","BitSetIter enumerates exactly the set","Iterating a bit set with BitSetIter terminates and yields exactly the indices of the 1-bits, each once, in strictly increasing order.","every bit set (any number of 64-bit words with any content)","2^(64*w) contents; word-boundary and bit-63 cases are only sampled by tests",["src/utils.rs: BitSetIter::new, BitSetIter::next"])
p("C03","LexBitSet is a total order, the lexicographic one","Comparing two bit sets through LexBitSet is the lexicographic comparison of their bits starting at bit 0 (missing words read as zeros): antisymmetric, transitive, total, and Equal exactly when the two sets have the same members; == agrees with cmp.","all pairs and triples of bit sets, also of different lengths","transitivity and antisymmetry range over all triples of word vectors",["src/utils.rs: LexBitSet::cmp, PartialEq::eq, partial_cmp"])
p("C04","Matrix cells are independent","In an n-by-m Matrix every in-range (row, col) addresses a cell inside the backing vector, two different index pairs address different cells, so a write to one cell is read back and leaves all the others unchanged.","every matrix size, every pair of in-range indices, every element value","addressing arithmetic must be injective for every (n,m)",["src/utils.rs: Matrix::new,new_default,pos,index,index_mut","examples/psp/utils.rs: Matrix"])
p("C05","Option names round-trip","Parsing the printed form of a CutsetType, CompilationType or SolverType gives the value back, and parsing succeeds on no other string.","every enum value and every input string","rejecting all other strings is a statement over infinitely many strings",["src/prelude.rs: FromStr/Display for CutsetType, CompilationType","src/xputils.rs: FromStr/Display for SolverType"])
p("C06","Frontier pops the best upper bound","NoDupFrontier::pop returns a node whose upper bound is at least that of every node held, and None only if nothing is held.","every history of push/pop/clear, every state type, every ranking that is a total preorder consistent with state equality","heap order is an invariant over unbounded operation histories with in-place priority updates",["src/frontier/no_dup.rs: push,pop,bubble_up,bubble_down,max_child_of","src/frontier/mod.rs: MaxUB"])
p("C07","Frontier holds each state once","A NoDupFrontier never holds two nodes with the same state: len() is the number of distinct states pushed and not yet popped or cleared.","every history of push/pop/clear","depends on hash map, heap and recycle bin staying in step over every history",["src/frontier/no_dup.rs: push,pop,len,states,recycle_bin"])
p("C08","Duplicate pushes keep the longest path and the largest bound","After any history the node held for a state carries the value and the path of a push with the largest value for that state since it was last popped/cleared (the earliest such push), and the largest ub among those pushes.","every history of push/pop/clear and every state","which copy survives depends on the order of arbitrarily many duplicate pushes",["src/frontier/no_dup.rs: push (Occupied)"])
p("C09","Frontier conserves work","A push makes its state available and removes no other state; a pop removes exactly the returned node; clear empties the frontier and leaves it equivalent to a new one; is_empty() iff len()==0.","every history of push/pop/clear","loss of a node only shows for specific histories (recycled slots, swaps)",["src/frontier/no_dup.rs: push,pop,clear,len,is_empty"])
p("C10","Frontier never indexes out of range","No history of push/pop/clear makes NoDupFrontier index a vector out of bounds or loop forever.","every history of push/pop/clear","panics hide in rare combinations of recycling, bubbling and swap_remove",["src/frontier/no_dup.rs"])
p("C11","Draining the frontier is sorted","Popping until None yields every held node exactly once in non-increasing upper-bound order.","every history of push/pop/clear followed by a full drain","a sorting statement over all contents",["src/frontier/no_dup.rs: pop"])
p("C12","Exact compilation computes the optimum","Compiling an MDD in Exact mode: best_value() is the value of the best completion of the residual problem whenever that value exceeds best_lb, and is_exact() is true.","every problem with a static variable order and admissible estimate, every residual subproblem, every hash-map iteration order","all problems and all iteration orders of the hash map",["src/mdd/with_all.rs: _compile, branch_on","src/mdd/with_barrier.rs: _compile"])
p("C13","Solutions reported by restricted and exact diagrams are real","Whenever an MDD was compiled Restricted or Exact, or is_exact() is true, and best_solution() is Some(sol), then sol is the set of decisions of a feasible complete assignment extending the residual path and its objective value is best_value().","every problem, residual, width >= 0/1, ranking, iteration and sort order","quantifies over every problem and every truncation of every layer",["src/mdd/with_all.rs: _best_solution,_best_path,has_exact_best_path","src/mdd/with_barrier.rs"])
p("C14","Relaxed diagrams give upper bounds","Compiled Relaxed, best_value() is at least the value of every completion of the residual subproblem that improves on best_lb; if best_value() is None no completion improves on best_lb.","every problem, every relaxation whose merge/relax over-approximate, every residual, width >= 1, order of nodes","merging depends on all layers, widths and orders",["src/mdd/with_all.rs: relax, branch_on, _compile"])
p("C15","is_exact() certifies optimality","If is_exact() is true after a compilation then the residual subproblem has no completion better than max(best_lb, best_value()).","every problem, compilation mode, width and order","exactness propagation through flags over all diagrams",["src/mdd/with_all.rs: _is_exact, has_exact_best_path","src/mdd/with_barrier.rs"])
p("C16","LEL cutset covers every improving solution with a valid bound","After an inexact Relaxed compilation with the last-exact-layer cutset, every completion of the residual that improves on best_lb passes through a drained subproblem whose value is at least the prefix value and whose ub is at least the completed value.","every problem/relaxation/residual/width and every improving completion","losing one solution for one problem makes the solver wrong; no finite test covers all paths",["src/mdd/with_all.rs: relax (cutset), compute_local_bounds, _drain_cutset"])
p("C17","Cutset subproblems are genuine and deeper","Every subproblem handed out by drain_cutset is reached from the residual by its recorded path, its value is the value of that path, and its path is strictly longer than the residual's.","every relaxed compilation with either cutset type","progress and exactness must hold for all diagrams; otherwise the solver loops or reports false solutions",["src/mdd/with_all.rs: _drain_cutset, relax","src/mdd/with_barrier.rs"])
p("C18","Width limits are respected","In Restricted mode no expanded layer has more than max_width nodes; in Relaxed mode no expanded layer at depth > 1 has more than max_width nodes.","every problem, width, layer and order","sizes and recycled merges vary over all inputs",["src/mdd/with_all.rs: restrict, relax","src/mdd/with_barrier.rs: restrict, relax"])
p("C19","A reported solution decides every variable exactly once","best_solution() of an MDD or solver has one decision for each variable of the problem.","every problem with a static variable order, every run","must hold for each nesting of residual paths",["src/mdd/with_all.rs: _best_path_partial_borrow","src/solver/parallel.rs: maybe_update_best"])
p("C20","Frontier cutset covers every improving solution","Same as C16 for the Frontier cutset.","every problem/relaxation/residual/width and every improving completion","whether a path is covered depends on the whole diagram",["src/mdd/with_all.rs: compute_local_bounds","src/solver/parallel.rs: process_one_node"])
p("C21","Compilation does not panic","With max_width >= 1 a compilation terminates without panicking (no out-of-range index, no underflow); with max_width = 0 a relaxed compilation that has to merge a layer panics.","every problem with a static variable order, residual, mode and width","index safety over every arena history",["src/mdd/with_all.rs: relax (max_width - 1), split_at_mut"])
p("C22","An MDD object can be reused","Compiling with an MDD that was already used for any other compilations gives the same result as compiling with a fresh one.","every earlier compilation history and every input","leftover state only shows after particular histories",["src/mdd/with_all.rs: clear, _compile","src/mdd/with_barrier.rs: clear"])
p("C23","Incumbent is always real","At every moment of a ParallelSolver run, best_solution() is a feasible complete assignment whose value is best_value(), or both are None.","every problem, thread count, schedule, interrupt time, cutset type","all interleavings of threads",["src/solver/parallel.rs: maybe_update_best, best_value, best_solution"])
p("C24","Lower bound never decreases","best_lower_bound() never decreases during a run and never exceeds the optimum.","every schedule and interrupt","all interleavings",["src/solver/parallel.rs: maybe_update_best, best_lb"])
p("C25","maximize() returns the optimum","When ParallelSolver::maximize returns, best_value() is the optimum of the problem (LEL cutset).","every problem, admissible estimate, valid relaxation, width heuristic >= 1, thread count >= 1, schedule","optimality under all interleavings and all heuristics",["src/solver/parallel.rs: maximize, get_workload, process_one_node, enqueue_cutset"])
p("C26","Infeasible problems give None","When maximize returns, best_value() and best_solution() are None exactly if the problem has no feasible solution.","every problem and schedule","needs exhaustive search argument",["src/solver/parallel.rs: best_value"])
p("C27","No deadlock and no lost wake-up","In every reachable state of a run in which some worker has not terminated, some worker can take a step; a worker parked on the monitor implies another worker is processing a node and will notify it.","every schedule, thread count, interrupt","lost wake-ups occur only in rare interleavings",["src/solver/parallel.rs: get_workload (monitor.wait), notify_node_finished"])
p("C28","Every run terminates","There is no infinite schedule: each run of maximize makes finitely many steps.","every problem with finitely many layers, schedule and thread count","termination is not observable by testing",["src/solver/parallel.rs: maximize, get_workload"])
p("C29","Interrupted upper bound is valid","After an interrupted run, best_upper_bound() is at least the optimum.","every schedule and interrupt time","depends on which nodes are open/ongoing at the interruption",["src/solver/parallel.rs: get_workload (best_ub)"])
p("C30","Interrupted runs do not claim closed gaps","If maximize_with_interrupt returns Interrupted then best_upper_bound() equals best_lower_bound() only if the optimum was found.","every schedule and interrupt time","requires a particular interleaving of the interruption with other threads",["src/solver/parallel.rs: get_workload (Are we done ?)"])
p("C31","Proved means proved","If maximize_with_interrupt returns Proved then best_value() is the optimum and best_upper_bound() = best_lower_bound() = optimum (if feasible).","every schedule and interrupt behaviour","all interleavings",["src/solver/parallel.rs: maximize_with_interrupt"])
p("C32","with_nb_threads accepts any thread count","A solver whose thread count was changed through with_nb_threads runs without panicking.","every constructor thread count, every new thread count","depends on the machine's core count",["src/solver/parallel.rs: with_nb_threads, custom (upper_bounds)","src/solver/barrier.rs: with_nb_threads"])
p("C33","Any conforming frontier gives the same answer","The optimum returned by ParallelSolver does not depend on which Frontier implementation is used (SimpleFrontier, NoDupFrontier) as long as it honours the Frontier contract.","every Frontier implementation meeting the documented contract","quantifies over implementations",["src/prelude.rs: Frontier","src/frontier/simple.rs"])
p("C34","Work accounting","The number of nodes being processed is always the number of workers that hold a node; the explored counter equals the number of nodes handed to workers.","every schedule","all interleavings",["src/solver/parallel.rs: ongoing, explored"])
p("C35","Barrier solver returns the optimum (one thread)","When BarrierParallelSolver::maximize returns on one thread, best_value() is the optimum (LEL cutset), None iff infeasible.","every problem with a valid relaxation and admissible estimate, every width heuristic >= 1, every node order","a pruned node may be the only one leading to the optimum; depends on all thresholds ever stored",["src/solver/barrier.rs: get_workload, process_one_node","src/mdd/with_barrier.rs"])
p("C36","Barrier incumbent is always real","At every moment of a BarrierParallelSolver run, whatever the barrier contains, best_solution() is a feasible assignment with value best_value(), or both are None.","every problem, thread count, schedule, barrier content","all interleavings of barrier reads and writes",["src/solver/barrier.rs: maybe_update_best","src/mdd/with_barrier.rs: _best_solution"])
p("C37","Barrier layer counters are safe","open_by_layer and ongoing_by_layer never underflow and are never indexed out of range; no active node is ever above the lowest active layer.","every schedule and history","underflow needs special combinations of duplicate pushes, clears and prunings",["src/solver/barrier.rs: open_by_layer, ongoing_by_layer, lowest_active_layer"])
p("C38","Thresholds only prune dominated nodes","Whenever the (single-threaded) barrier solver discards a node because of a stored threshold, the optimum is already known or is still reachable from another node that remains to be explored.","every stored threshold in every run","thresholds are derived from arbitrary relaxed diagrams",["src/mdd/with_barrier.rs: compute_local_bounds_and_theta, _compile","src/solver/barrier.rs: get_workload"])
p("C39","Cleaning the barrier is safe","Clearing thresholds of inactive layers never changes the final optimum.","every run and cleaning moment","ranges over all histories",["src/solver/barrier.rs: get_workload (clean up)"])
p("C40","Thresholds only grow","Without interference from another thread, storing a threshold never lowers the stored threshold of a state and never turns an explored entry with the same threshold into an unexplored one.","every barrier content, every update","every history of updates",["src/mdd/with_barrier.rs: try_update_barrier"])
p("C41","Barrier solver does not deadlock","Same as C27 for BarrierParallelSolver.","every schedule, thread count, interrupt","rare interleavings",["src/solver/barrier.rs: get_workload, notify_node_finished"])
p("C42","maximize() returns the optimum with the Frontier cutset","Same as C25 for solvers configured with the Frontier cutset.","every problem, thread count and schedule","depends on which exact nodes the cutset misses",["src/solver/parallel.rs: process_one_node, enqueue_cutset","src/mdd/with_all.rs: compute_local_bounds, drain_cutset"])
p("C43","Barrier solver returns the optimum with several threads","Same as C35 for any number of threads.","every problem, thread count and schedule","needs a particular interleaving of one worker's stores with another worker's look-ups",["src/solver/barrier.rs: get_workload, process_one_node","src/mdd/with_barrier.rs: _compile, compute_local_bounds_and_theta"])
p("C44","Barrier lower bound never decreases","During a run of BarrierParallelSolver best_lower_bound() never decreases and never exceeds the optimum.","every schedule, thread count and interrupt","all interleavings",["src/solver/barrier.rs: maybe_update_best"])
p("C45","Every barrier run terminates","There is no infinite schedule of BarrierParallelSolver::maximize, and a run that cannot be continued has stopped all workers.","every problem with finitely many layers, schedule and thread count, whatever the barrier contains","termination is not observable by testing",["src/solver/barrier.rs: maximize, get_workload"])
p("C46","Interrupted barrier bounds are valid","After an interrupted run of BarrierParallelSolver, best_upper_bound() is at least the optimum, and equals best_lower_bound() only if the optimum was found.","every schedule and interrupt time","depends on which nodes are open or in process at the interruption",["src/solver/barrier.rs: get_workload (best_ub)"])
p("C47","Proved means proved for the barrier solver (one thread)","If maximize_with_interrupt of a single-threaded BarrierParallelSolver returns Proved then best_value() is the optimum and both bounds equal it (if feasible); if the problem is infeasible there is no best value.","every problem and interrupt behaviour","needs an exhaustive search argument that survives pruning",["src/solver/barrier.rs: maximize_with_interrupt"])
p("C48","Work accounting of the barrier solver","The number of nodes in process is the number of workers that hold one; the explored counter is the number of nodes handed to workers (nodes discarded by a threshold are not counted).","every schedule","all interleavings",["src/solver/barrier.rs: ongoing, explored"])
p("C49","The barrier solver does not repeat work","If two nodes handed to the worker of a single-threaded barrier solver have the same state, the later one has a strictly greater value.","every run, every node order and cleaning moment","a repetition needs a particular order of stores, cleanings and pops",["src/solver/barrier.rs: get_workload","src/mdd/with_barrier.rs: try_update_barrier"])
p("C50","with_nb_threads of the barrier solver accepts any thread count","Same as C32 for BarrierParallelSolver.","every constructor thread count, every new thread count","depends on the machine's core count",["src/solver/barrier.rs: with_nb_threads, custom (upper_bounds)"])
p("C51","The barrier solver returns the optimum with the Frontier cutset","Same as C35 for solvers configured with the Frontier cutset.","every problem and node order","depends on which exact nodes the cutset misses",["src/solver/barrier.rs: process_one_node","src/mdd/with_barrier.rs: compute_local_bounds_and_theta, drain_cutset"])
p("C52","TSPTW: every solution of the model is a tour","Every feasible solution of the dynamic program of the TSPTW example is a tour that visits every city once within its time window, and its objective value is the negated duration of the tour (waiting included).","every instance with at least one city, every solution","all decision sequences of all instances",["examples/tsptw/model.rs: Problem for Tsptw (for_each_in_domain, transition, transition_cost, next_variable)","examples/tsptw/state.rs"])
p("C53","TSPTW: every tour is a solution of the model","Every feasible tour is a solution of the dynamic program, so that the optimum is the duration of a shortest tour.","every instance and every tour","the domain cuts off decisions by a reachability test that must never reject a feasible tour",["examples/tsptw/model.rs: for_each_in_domain, can_move_to"])
p("C54","TSPTW: the rough bound is admissible","estimate() never underestimates the best completion of a state.","every instance, every state that can come up (merged ones included)","ranges over all merges of all layers",["examples/tsptw/model.rs: estimate"])
p("C55","TSPTW: the relaxation is sound","Every completion of a state is a completion, of at least the same value, of the state it is merged into.","every instance, every set of merged states","waiting times and merged sets over all layers",["examples/tsptw/relax.rs: merge, relax"])
p("C56","TSPTW: the program returns a shortest tour","When the solver configured as in the tsptw program returns, its best value is the negated duration of a shortest tour.","every instance with the triangle inequality, every schedule","composition of model, relaxation, bound and search",["examples/tsptw/main.rs","examples/tsptw/model.rs","examples/tsptw/relax.rs","examples/tsptw/heuristics.rs"])
p("C57","TSPTW: no state is out of range","In every state that can come up the pool of positions is not empty, all cities are in range, times are bounded by the number of cities times the longest step, and the counter of the estimate does not drop below zero.","every instance, every state built by transitions and merges","ranges over all merges of all layers",["examples/tsptw/model.rs: min_distance_to, estimate","examples/tsptw/relax.rs"])
p("C58","Bounds of the nodes in process","At every moment the slot of a worker in upper_bounds holds the bound of the node it is processing and isize::MAX if it has none; the bound recorded at an interruption is at least the bound of every node in process, or the largest bound of an open node if none is in process.","every schedule, thread count and interrupt time, both solvers","a stale slot shows only if the interruption falls between two critical sections",["src/solver/parallel.rs: get_workload, notify_node_finished","src/solver/barrier.rs: get_workload, notify_node_finished"])
p("C59","TSPTW: arrival times","The interval of arrival times of every state is not empty and lies within the time window of the current city.","every instance, every state built by transitions and merges","needs a merge followed by a step to a city that opens later than the latest arrival",["examples/tsptw/model.rs: arrival_time"])
p("C60","PSP: the tables of deadlines","prev_demand[(i,p)] is the last period before p in which item i is due (-1 if there is none), and rem_demand[(i,p)] the number of periods up to p in which it is due.","every instance, item and period","the last column is written by a special case at the end of a row",["examples/psp/psp.rs: try_from"])
p("C61","PSP: every solution is a feasible plan","The decisions of every solution of the dynamic program are a plan that meets all demands in time and makes nothing else, and its value is the negated cost of that plan.","every instance, every solution","stocking costs are charged per unit when it is made, not per period",["examples/psp/psp.rs: for_each_in_domain, transition, transition_cost"])
p("C62","PSP: every feasible plan is a solution","Every feasible plan is a solution of the dynamic program, so that the optimum is the negated cost of a cheapest plan.","every instance, every plan","the dynamic program plans backwards and cuts branches with too many remaining units",["examples/psp/psp.rs: for_each_in_domain, transition, transition_cost"])
p("C63","PSP: the rough bound is admissible","estimate() never underestimates the best completion of a state; the sum of ideal stocking cost and table entry is a lower bound on the cost of every completion.","every instance, every state that can come up (merged ones included), every earlier content of the buffers","exchange argument over all plans for a greedy rule; a cover of the vertices against all sequences",["examples/psp/psp.rs: estimate, compute_ideal_stocking, vertices, mst"])
p("C64","PSP: the relaxation is sound","Every completion of a state has a counterpart of at least the same value from the state it is merged into.","every instance, every set of merged states","the merged state makes fewer units, so the changeovers in between change",["examples/psp/psp.rs: PspRelax"])
p("C65","PSP: the program returns a cheapest plan","When the solver configured as in the psp program returns, its best value is the negated cost of a cheapest feasible plan; what it reports is always a feasible plan of that cost; it terminates.","every instance, every schedule and thread count","composition of model, relaxation, bound and search",["examples/psp/main.rs","examples/psp/psp.rs"])
p("C66","PSP: no state is out of range","In every state that can come up all deadlines are -1 or periods in which the item is due, the next item is in range, no subtraction goes below zero and the index into the table of changeover costs is in range.","every instance, every state built by transitions and merges","ranges over all merges of all layers",["examples/psp/psp.rs: transition_cost, compute_ideal_stocking, estimate"])
p("C67","PSP: the table of changeover costs","The entry of a set of items is computed from the edges of that set, and is at most the cost of any sequence of exactly these items.","every instance, every set of items, every resolution of ties","depends on all sets that were processed before",["examples/psp/psp.rs: precompute_all_mst, mst"])
p("C68","SRFLP: the flows are symmetric","After an instance has been read the flow between two departments is the sum of the two entries of the matrix (each pair counted once if the matrix is symmetric), and the matrix is symmetric.","every matrix, every pair of departments","the loops overwrite the matrix they read",["examples/srflp/instance.rs: From<Lines> (handle asymmetrical flows)"])
p("C69","SRFLP: solutions are layouts","The solutions of the dynamic program are the orders of the departments, and the value of a solution is the negated cost of the layout (flow times distance between middles) less the part that is the same for all layouts; so the optimum is that of a cheapest layout.","every instance, every layout","the program charges cuts per department instead of distances per pair",["examples/srflp/model.rs: for_each_in_domain, transition, transition_cost, _root_value"])
p("C70","SRFLP: the relaxation is sound","Every completion of a state is a completion, of at least the same value, of the state it is merged into.","every instance, every set of merged states","merged states choose the smallest cuts of the departments that may be placed",["examples/srflp/relax.rs: merge, relax","examples/srflp/model.rs: transition_cost"])
p("C71","SRFLP: the rough bound is admissible","estimate() never underestimates the best completion of a state.","every instance, every state that can come up (merged ones included)","combines a scheduling rule on rounded quotients with a greedy assignment of flows to distances",["examples/srflp/model.rs: estimate"])
p("C72","SRFLP: the program returns a cheapest layout","When the solver configured as in the srflp program returns, its best value is that of a cheapest layout; what it reports is always a layout of that cost; it terminates.","every instance, every schedule and thread count","composition of model, relaxation, bound and search",["examples/srflp/main.rs","examples/srflp/model.rs","examples/srflp/relax.rs","examples/srflp/heuristics.rs"])
p("C73","SRFLP: nothing is out of range","In every state that can come up all departments are in range, cuts are bounded by the flow of the departments placed so far, the vectors of the rough bound have the lengths it relies on, no subtraction goes below zero and its result fits into 64 bits.","every instance, every state built by transitions and merges","ranges over all merges of all layers",["examples/srflp/model.rs: estimate, transition_cost","examples/srflp/relax.rs"])
p("C74","Single precision is modelled faithfully","The conversions and quotients of the model are the single precision numbers nearest to the exact results, ties to even; there is only one such number; representations compare as the numbers do.","every positive number up to 2^104","universally quantified over numbers",["examples/srflp/model.rs: estimate (226-246)","src/xputils.rs: gap"])
p("C75","The printed gap","The gap that is printed is a number between 0 and 1 that is 0 exactly if the bounds agree; a run that is not interrupted prints the optimum as best value and both bounds and the gap 0.","every pair of bounds; every problem, schedule and number of threads","ranges over all runs",["src/xputils.rs: gap (171-178), solve_timeout (67-169)"])
p("C76","Words and numbers of a text","A trimmed line is the line without the surrounding white space; the words of a line are its maximal pieces without separators, and only those; a word parses as a number exactly if it is a numeral (with an optional sign) within the range of the type, and then to its value.","every line, every set of separators, every word","ranges over all texts",["examples/srflp/instance.rs","examples/tsptw/instance.rs","examples/psp/psp.rs"])
p("C77","Layout files are read as written","A well-formed file of the example srflp (comma or white space separated rows, blank lines) is read as the lengths and the flows that stand in it, and the program then returns the cost of a best layout.","every well-formed file; every schedule, width and number of threads","ranges over all files",["examples/srflp/instance.rs: From<Lines<B>>"])
p("C78","Lot sizing files are read as written","A well-formed file of the example psp is read as the numbers that stand in it, the two demand tables are those of the demands in the file, and the program then returns the cost of a cheapest plan.","every well-formed file; every schedule, width and number of threads","ranges over all files",["examples/psp/psp.rs: TryFrom<Lines<B>> for Psp"])
p("C79","Salesman files are read as written","Every number of a well-formed file of the example tsptw is read as its ten thousandfold, so that the tours and their order by duration are those of the file.","every well-formed file; every decimal number","ranges over all files; decimal to binary conversion of arbitrary numerals",["examples/tsptw/instance.rs: From<Lines<B>> (62-111)"])

p("C80","Interleavings of single barrier accesses","When the threads interleave at every single read, write and clearing of the barrier, no worker panics, get_workload is exclusive, the incumbent is real at every moment, the lower bound never decreases, there is no deadlock, and every run ends with all workers stopped.","every problem, thread count, interrupt and interleaving of accesses","needs particular interleavings of lock acquisitions",["src/solver/barrier.rs: process_one_node (220-268), enqueue_cutset, notify_node_finished (277-309), get_workload (320-413)","src/mdd/with_barrier.rs: _compile (226-353), try_update_barrier (613-631)"])
p("C81","Stored thresholds never get weaker","Whatever the interleaving of the threads, a threshold of a state in an active layer is never replaced by a weaker one.","every interleaving of accesses to the barrier","comparison and store are made under two different locks, so that only a store of another thread in between shows the difference",["src/mdd/with_barrier.rs: try_update_barrier (613-631)"])
p("C82","One thread sees the barrier as it is","With one thread, a run in which every access to the barrier is a step of its own leads to the same states as one in which whole compilations are steps, and maximize() returns the optimum.","every problem, every run","thresholds are stored while the diagram is still being compiled",["src/mdd/with_barrier.rs: _compile (226-353)","src/solver/barrier.rs: get_workload (320-413)"])

p("C83","A solver can be called again","maximize() and maximize_with_interrupt() may be called any number of times on the same solver: no call panics, deadlocks or runs for ever, the incumbent stays real, the lower bound never decreases from one call to the next, and whenever a call returns Proved its answer is the optimum (barrier solver: with one thread).","every problem, number of calls, schedule and interrupt behaviour of each call","the state left behind by a call depends on its whole history; counters and thresholds are kept",["src/solver/parallel.rs: maximize, maximize_with_interrupt, initialize (182-186), get_workload (312-325)","src/solver/barrier.rs: initialize (199-204)"])
p("C84","maximize() is right whatever was called before","maximize() returns the optimum whatever calls were made on the solver before, also after an interrupted one.","every sequence of calls","needs a second call after an interruption",["src/solver/parallel.rs: maximize (378-421), get_workload (312-325)","src/solver/barrier.rs: maximize"])
p("C85","The smallest values of the options","The solvers return the optimum without panicking for every number of threads and every maximum width that can be given on the command line.","every number of threads and width, zero included","zero is a special case in several places",["src/solver/parallel.rs: maximize_with_interrupt (thread::scope)","src/mdd/with_all.rs: restrict, relax (max_width - 1)","src/mdd/with_barrier.rs: restrict, relax","examples/srflp/main.rs: threads, width","examples/psp/main.rs: threads, width","examples/tsptw/main.rs: threads, width"])

p("C86","Rows and columns of a matrix","row(i) and row_mut(i) give the cells of row i from left to right, col(i) and col_mut(i) those of column i from top to bottom, for every index in range and in every build; new(n, m) has n rows and m columns; with assertions every index out of range is detected.","every matrix whose vector has n * m items, every index, builds with and without debug assertions","the examples keep their cost tables in such matrices",["examples/psp/utils.rs: Matrix::new, pos, index, index_mut, row, row_mut, col, col_mut"])

p("C87","Best first","No node is explored whose bound is below the optimum, and the bounds of the nodes that are explored never increase.","every problem and relaxation that satisfy the contracts, every number of threads, every schedule","the frontier is ordered by upper bounds so that no useless node is explored",["src/solver/parallel.rs: get_workload, enqueue_cutset","src/solver/barrier.rs: get_workload, enqueue_cutset","src/frontier/simple.rs: pop","src/frontier/no_dup.rs: pop"])

p("C88","The statistics","`get_explored` of a diagram is the number of nodes that were expanded, which is at most the maximum width for every variable of a restricted diagram and for all but the first two of a relaxed one; `get_explored_dd` of a solver is the total over the diagrams it compiled, at most two per node.","every problem that satisfies the contract, every width, every schedule, every number of threads","the counters are the measures by which the solvers are compared",["src/mdd/with_all.rs: get_explored, _compile","src/mdd/with_barrier.rs: get_explored, _compile","src/solver/parallel.rs: process_one_node, notify_node_finished, get_explored_dd","src/solver/barrier.rs: process_one_node, notify_node_finished, get_explored_dd"])

p("C89","Restriction keeps the most promising nodes","A restricted diagram is a beam search: every layer consists of all children of the states kept in the layer before, each once and with its best value; of these the max_width most promising ones are kept (largest value, then best rank); the best value of the diagram is the best one of its last layer. Without ties it does not depend on the order in which the nodes are stored.","every problem that satisfies the contract, every ranking that is a total preorder, every width, every subproblem, both diagrams","ranges over all orders of a layer before sorting; an inverted comparison is still sound",["src/mdd/with_all.rs: _compile, restrict, branch_on","src/mdd/with_barrier.rs: _compile, restrict, branch_on","src/prelude.rs: StateRanking"])

p("C90","Relaxation merges the least promising nodes","In a relaxed diagram every layer from the third one on that exceeds max_width keeps its max_width - 1 most promising nodes and merges the others into one node, whose value is the best one over all redirected arcs with their relaxed costs; if the merged state is among those kept, the two become one node and the best one of the others is kept too. The bound of the diagram is the best value of its last layer. Without ties and with a merge operator that ignores the order of its arguments, the bound does not depend on the order in which the nodes are stored.","every problem and relaxation that satisfy the contract, every ranking that is a total preorder, every width, every subproblem, both diagrams (the last sentence: with_all)","ranges over all orders of a layer before sorting; merging too many or too few nodes, or the best ones, is still sound",["src/mdd/with_all.rs: _compile, relax, branch_on","src/mdd/with_barrier.rs: _compile, relax, branch_on","src/prelude.rs: Relaxation"])
p("C91","What a cutset consists of","With the last exact layer, the cutset of a relaxed diagram that is not exact consists of the nodes of the deepest layer all of whose layers up to it hold only exact nodes, that are not deleted and reach the last layer; with the frontier, of the exact nodes that have an inexact child reaching the last layer. Every such node occurs exactly once. Its subproblem carries the state and value of the node, the best path to it, and as upper bound the smaller one of value + estimate and value + length of the longest path from the node to the last layer. Exact and restricted diagrams have no cutset.","every problem and relaxation that satisfy the contract, every width, every subproblem, both cutsets, both diagrams","characterises nodes by paths of the diagram, the code by flags set in a backwards sweep; a cutset with looser bounds or with too many nodes is still sound",["src/mdd/with_all.rs: _compile, compute_local_bounds, drain_cutset","src/mdd/with_barrier.rs: _compile, compute_local_bounds_and_theta, drain_cutset"])
p("C92","Which thresholds a diagram stores","A relaxed diagram stores for every exact node that was neither merged nor pruned by a threshold (and, with the last exact layer, lies not below it) the largest value t such that no path of the diagram that starts in the node with t exceeds the limit of a node it meets: for a pruned node the threshold it was pruned with, for one whose estimate is not above the lower bound the value that would just reach the lower bound, for a cutset node its own value or, if the longest path through it stays below the lower bound, the value that would just reach it. The entry says explored unless the node is in the cutset. Besides, only entries for the values of nodes when they are expanded are stored. No threshold is below the value of its node.","every problem and relaxation that satisfy the contract, every width, every lower bound (last sentence: below isize::MAX), every subproblem, both cutsets, every content of the barrier","states what is stored in terms of paths and limits; smaller thresholds than these are still sound but prune less",["src/mdd/with_barrier.rs: _compile, compute_local_bounds_and_theta, try_update_barrier"])
p("C93","The line printed at the end of a run","The line that a run prints can be taken apart again: split at the bars it consists of eleven cells, and these are the name of the instance, the solver, the status, the time and the memory rounded to two digits, the best value or 'not found', the two bounds, the gap rounded to four digits (NaN if both bounds are 0), and the two counters, in decimal notation (a minus sign for negative numbers only, no zeros in front). Equal lines mean equal name, solver, status, best value, bounds and counters. After a run that was not interrupted, the line of a problem with an optimum v other than 0 says Proved, gives v as best value and as both bounds, and the gap 0.0000.","every name without bars and without spaces around it, every report, both solvers (end of a run: the barrier solver with one thread), every problem and relaxation that satisfy the contract","scripts read these lines; all values and widths matter",["src/xputils.rs: solve_timeout, gap"])
p("C94","The table lines up","The columns of the line of a run are below those of the header.","every name, every report","all values and widths matter",["src/xputils.rs: solve_timeout, resolution_header","src/xputils.rs: SolverType","src/prelude.rs: ResolutionStatus"])
p("C95","Line ends","A text file is split into its lines, each of which ends with a line feed or with a carriage return and a line feed, where the end of the last line may be missing; the readers of the three examples read a well-formed file whichever line ends it has.","every text, every list of lines, every choice of line ends","texts and lines are of unbounded length, and ends can be chosen line by line",["examples/srflp/instance.rs: From<Lines>","examples/tsptw/instance.rs: From<Lines>","examples/psp/psp.rs: TryFrom"])
p("C96","White space around lines","White space before and after the lines of an instance file does not change what is read.","every file of each example, every white space","files have any number of lines, with any white space",["examples/srflp/instance.rs: From<Lines>","examples/tsptw/instance.rs: From<Lines>","examples/psp/psp.rs: TryFrom"])
p("C97","Running an action with a deadline","Seen from outside, a process that calls timeout behaves in one of a few ways: it ends with code 0 after the action is completed, without having called the hook, or with code 1 after the hook is completed; the hook is called at most once; if the action or the hook panics, the code may be 101. The process cannot get stuck.","every interleaving of the main thread and the thread that waits for the deadline","the deadline may pass at any moment, also between the end of the action and the end of the process",["src/xputils.rs: timeout"])
p("C98","With the last exact layer, no partial assignment is expanded twice","Whenever two nodes are given to workers during a call, one after the other, the later one extends the earlier one by at least one decision, or the two give different values to some variable. So the same decisions are not expanded twice, in whatever order they were taken, and the explored counter is at most the number of partial assignments.","every schedule, every thread count, every order of the hash map, both fringes","a duplicate needs two workers whose cutsets overlap; the result is the same, only the time differs",["src/solver/parallel.rs: process_one_node, enqueue_cutset, get_workload", "src/mdd/with_all.rs: drain_cutset"])
p("C99","From the arguments and the file to the printed line","The run is listed under the name of its file without directories and extension. The arguments have the documented defaults and are rejected if malformed. What the line says is unambiguous: its best value is that of a solution, and if it says Proved, this is the optimum and equal to both bounds. Every run can be completed, and then a line is printed if there is a solution. For the programs srflp, psp and tsptw: the best value is that of a layout, plan or tour of the instance described by the text of the file, and with Proved it is a best one.","every path, every value of the arguments, every text with a well-formed file, every schedule and every moment of the timeout","each part may be right and the whole wrong: the options handed to the wrong parameter, the wrong bound printed, the wrong default",["src/xputils.rs: Args, solve_timeout", "examples/srflp/main.rs: run_resolution_xp", "examples/psp/main.rs: run_resolution_xp", "examples/tsptw/main.rs: run_resolution_xp", "examples/srflp/instance.rs: From<Lines>", "examples/tsptw/instance.rs: From<Lines>", "examples/psp/psp.rs: TryFrom<Lines>", "examples/psp/utils.rs"])
p("C100","Width heuristics","The width given by a heuristic is what its name says: Fixed(w) is w, NbUnassigned of the example psp is the number of variables without a value (also in merged states), and the widths of the programs are the argument times the number of variables (times the number of visited cities plus one for tsptw). The width is used only while a variable is free, so that one of at least 1 is needed only there. With a positive argument no run panics because of the width.","every state, every argument, every schedule","a width of 0 makes every compilation panic, and NbUnassigned is 0 for complete assignments",["src/heuristics/mod.rs", "examples/psp/psp.rs: NbUnassigned, PspWidth", "examples/srflp/heuristics.rs: SrflpWidth", "examples/tsptw/heuristics.rs: TsptwWidth"])
p("C101","The barrier solver does not expand a partial assignment twice","During a call of BarrierParallelSolver with the last exact layer, of two nodes given to workers the later one extends the earlier one by at least one decision, or the two give different values to some variable; the explored counter is at most the number of partial assignments. With the frontier as cutset the same decisions are not expanded twice either if each step sees the barrier as it is, so always with one thread.","every schedule, every thread count, whatever the threads see of the barrier","a duplicate only costs time, and needs overlapping cutsets of two workers",["src/solver/barrier.rs: get_workload, process_one_node, enqueue_cutset", "src/mdd/with_barrier.rs: drain_cutset"])
p("C102","How many nodes the example programs explore at most","With the cutset lel, the number that the programs print as Explored is at most the number of partial layouts of the instance (srflp), of partial plans (psp) or of beginnings of tours and tours (tsptw), with either solver and any number of threads.","every bounded instance, every thread count, every schedule, every admissible width factor","branch and bound that loses its best-first order or pushes nodes twice is still correct, only slower; the bound is the worst case a user can rely on",["examples/srflp/model.rs", "examples/psp/psp.rs", "examples/tsptw/model.rs", "src/solver/parallel.rs", "src/solver/barrier.rs"])
p("C103","Instance files are decoded as UTF-8","A file of bytes gives an instance exactly if the bytes are the UTF-8 encoding of a text that gives this instance; the lines of the bytes are the lines of the text. A byte order mark is not skipped: such a file is refused.","every sequence of bytes, every text","lines are cut out of the bytes before they are decoded, and every reader deals with the error of a bad line in its own way",["examples/srflp/instance.rs: From<Lines>", "examples/tsptw/instance.rs: From<Lines>", "examples/psp/psp.rs: TryFrom<Lines>"])
p("C104","With enough width the first node is the last one","If no layer of states reachable without merging has more states than the width at the root, a second node is never counted and a relaxed diagram never compiled. A run that ends with Proved has explored one node and returns the optimum, or nothing if the problem is infeasible. For srflp with n departments the width n choose n/2 is always enough.","every problem whose own bounds are admissible on the reachable states, every relaxation that respects layers and does not overflow (sound or not), every cutset, every number of threads up to the number the solver was created with, every interleaving, both solvers","it is the one case in which the result depends neither on the relaxation nor on the cutset nor on the barriers, three parts that are each wrong in some cases",["src/mdd/with_all.rs: _compile", "src/mdd/with_barrier.rs: _compile", "src/solver/parallel.rs: process_one_node", "src/solver/barrier.rs: process_one_node", "examples/tsptw/heuristics.rs: TsptwWidth"])
p("C105","What is printed if the width is enough, and for two shipped files","If the width is enough (C104) and the printed line says Proved, its best value is the optimum and equal to both bounds; in any case the value is that of a solution. If there is a solution and the time is not over, the line is printed and says Proved. For the file rc_206.1.txt that comes with the program, every number is read as written, and with --width 2 or more a line that says Proved gives the duration 117.8479 of the shortest tour. For the file Cl5, a line that says Proved gives -160, the layouts being as cheap as possible at 800: with any width for the solver without barriers and the cutset lel, otherwise with --width 2 or more.","every problem as in C104, every cutset, every number of threads, every interleaving, both solvers; for the file, every width from 2 to 2^46 - 1 (2^61 - 1 for Cl5)","tsptw prints Proved for tours that are not shortest (C56), so it matters when the word can be trusted",["src/xputils.rs: solve_timeout", "examples/tsptw/main.rs: main", "examples/tsptw/instance.rs: From<Lines>", "resources/tsptw/SolomonPotvinBengio/rc_206.1.txt", "examples/srflp/main.rs: main", "examples/srflp/instance.rs: From<Lines>", "resources/srflp/Cl5"])
p("C106","Rows of the wrong length","srflp and tsptw write the numbers of a row from its first cell on; numbers that are too many go into the next rows, cells that nothing is written to are 0, and a file is refused only if a row goes beyond the last cell. If all rows are complete, surplus numbers have no effect. A debug build of psp refuses rows of changeover costs that are too long; missing stocking costs are 0 and surplus ones are not looked at. Files without content give empty instances.","every file whose first line is the number of departments or nodes and whose further rows are numbers in range, with at most that many rows of the matrix (tsptw: fewer than 2^16 lines)","a file with a typing error is solved as another instance without any message",["src/utils.rs: Matrix", "src/utils.rs: IndexMut<(usize, usize)>", "examples/srflp/instance.rs: From<Lines>", "examples/tsptw/instance.rs: From<Lines>", "examples/psp/utils.rs: pos"])
p("C107","Release builds read lot sizing files in the same way","Whatever a debug build of psp reads, a release build reads in the same way; in particular well-formed files are read as written. Files that a debug build refuses because of the shape of a table are not refused by a release build: a surplus number in a line of demands changes the table of the next item.","every file","the index checks of the matrix are only there in debug builds, and programs are measured in release builds",["examples/psp/psp.rs: try_from", "examples/psp/utils.rs: pos"])
p("C108","What a merged state is","tsptw: the merged state is in all places the merged states are in, must visit the cities that all of them must visit, may visit the others that one of them may or must visit, has no second set if it would be empty, and its earliest time, latest time and depth are the smallest, largest and largest of theirs. srflp: the same for departments, and the cut value of a department is the smallest one of the states that have it still to place. psp: the merged state has no next item, and each deadline is the earliest one. In all three examples the order of the states, and repetitions among them, make no difference.","every non-empty list of states that are reachable in shape (of one layer, for srflp and psp)","the relaxation is sound for many wrong merges too (bounds that are too weak); this fixes the merge exactly, and with the order it makes the bounds independent of the order in which the last nodes of a layer were sorted",["examples/tsptw/relax.rs: merge", "examples/srflp/relax.rs: merge", "examples/psp/psp.rs: merge"])
p("C109","A worker that panics","In builds that unwind, a worker that panics while it compiles a diagram ends alone, without reporting its node. The shared data keep all the invariants of ordinary runs. Every such run still comes to rest (but for spurious wake-ups); but in maximize no other worker leaves its loop any more: if not all of them panic, those left over end up parked on the condition variable and the call never returns, whatever interrupt() would say then. With a single worker the call ends, with a panic. `--width 0` with two workers is such a run.","every run of either solver in which any workers panic at any compilations, any number of workers, any problem","a panic of user code, or of max_width - 1, turns into a program that hangs silently, except in release builds, where panic = \"abort\"",["src/solver/parallel.rs: maximize", "src/solver/parallel.rs: process_one_node", "src/solver/parallel.rs: notify_node_finished", "src/solver/parallel.rs: get_workload", "src/solver/barrier.rs: maximize", "src/solver/barrier.rs: process_one_node", "src/solver/barrier.rs: notify_node_finished", "src/solver/barrier.rs: get_workload"])
p("C110","Ties","Among equally good paths into a node, the diagram without a barrier keeps the first one tried; with a barrier it keeps the last exact one, or else the first one tried, and the node is exact just if the path kept is. A merged node keeps the last of the best edges redirected to it. Among equally good nodes of the last layer, the last one (in the order of the hash map) gives the solution.","every diagram, layer and problem, every order in which the layer is expanded","values and bounds do not depend on ties, but the solution that is returned does, and with a barrier the exactness of nodes",["src/mdd/with_all.rs: branch_on", "src/mdd/with_all.rs: relax", "src/mdd/with_all.rs: _compile", "src/mdd/with_barrier.rs: branch_on", "src/mdd/with_barrier.rs: relax", "src/mdd/with_barrier.rs: _compile"])
p("C111","More workers than cells","with_nb_threads does not lengthen upper_bounds: in a build that unwinds, a worker without a cell panics when it takes a node, and the node is lost. Then the call never returns: no worker leaves its loop, and those that go on come to rest parked for ever. What is recorded is right all the same: the incumbent is a true one at every moment, and if the call does return, its answer is optimal (without a barrier: with one, the answer of several workers need not be).","every number of workers and of cells, every schedule, every set of workers that panic","C32 says that such a solver may panic; this says what becomes of the call, which is worse than a panic",["src/solver/parallel.rs: with_nb_threads", "src/solver/parallel.rs: get_workload", "src/solver/parallel.rs: custom", "src/solver/barrier.rs: with_nb_threads", "src/solver/barrier.rs: get_workload"])
p("C112","A printed matrix","The matrix of psp is printed as an empty line and then one line for each row; the words of a line are the cells of the row from left to right, also if they are longer than the five characters reserved, so that a matrix of numbers can be read back. If no cell is longer, the columns line up. Printing fails just if there are cells but no columns, which new and new_default never give.","every number of rows and columns, all cells","ranges over all sizes and texts, in particular cells wider than their column",["examples/psp/utils.rs: fmt", "examples/psp/utils.rs: new_default"])
p("C113","A time limit after a panic","In a build that unwinds, after a worker of maximize_with_interrupt has panicked in a compilation, the others leave their loops only because of the interruption, so that the answer is never called proved; and the interruption is known only once one of them has left. With two workers the call then ends. With three it may never end although the time is up: the worker that notices it wakes nobody, and one that is parked stays parked.","every schedule, every set of workers that panic, every moment at which the time is up","a time limit does not guard against the hang of C109; depends on who is parked when",["src/solver/parallel.rs: get_workload", "src/solver/parallel.rs: maximize_with_interrupt", "src/solver/barrier.rs: get_workload", "src/solver/barrier.rs: maximize_with_interrupt"])
p("C114","A panic of interrupt()","In a build that unwinds, the function interrupt() given to maximize_with_interrupt may panic in some workers. This changes nothing of the shared data (with a barrier: only layers that are not active any more are cleared), the other workers come to rest and all of them leave their loops, so that the call ends with that panic, unlike after a panic in a compilation. If one of them has left its loop and nothing interrupted the search, the incumbent is optimal (without a barrier); with a barrier the incumbent is a solution with its true value.","every schedule, every set of workers in which interrupt() panics, every moment at which it does","the user's code runs with the lock held and while others may wait for work; that nobody is left waiting depends on who counts as ongoing",["src/solver/parallel.rs: get_workload", "src/solver/parallel.rs: maximize_with_interrupt", "src/solver/barrier.rs: get_workload", "src/solver/barrier.rs: maximize_with_interrupt"])
p("C115","Which panics make the call hang","In a build that unwinds, workers may panic in interrupt() and while they compile diagrams, in one and the same run. When the others have come to rest, which they do, each of them is parked or has left its loop, and one is parked only if a worker has panicked that holds a node. If nothing interrupted the search, the call has ended just if no worker has panicked that holds a node, or all have panicked. The incumbent is a solution with its true value; without a barrier it is optimal if a worker has left its loop and nothing interrupted the search.","every schedule, every set of workers that panic, in either way and at every moment","tells exactly when a panic in the user's code makes the call hang (C109) and when it is reported (C114)",["src/solver/parallel.rs: get_workload", "src/solver/parallel.rs: process_one_node", "src/solver/parallel.rs: maximize_with_interrupt", "src/solver/barrier.rs: get_workload", "src/solver/barrier.rs: process_one_node", "src/solver/barrier.rs: maximize_with_interrupt"])
p("C116","When interrupt() is called","The function interrupt() given to maximize_with_interrupt is called just when a worker asks for work and the search is neither complete nor interrupted. Its answers in a run are no any number of times and then yes at most once: after it has answered yes it is not called any more, no node is handed out any more, and each worker leaves its loop when it next asks for work. From then on the run makes at most 6 more steps per worker (7 with a barrier), spurious wake-ups included. Every node that is handed out has been preceded by an answer no of its own.","every schedule, number of threads and sequence of answers","a time limit is looked at before each node, by each worker, and is not asked again once it is over",["src/solver/parallel.rs: get_workload", "src/solver/barrier.rs: get_workload"])
p("C117","Relaxed diagrams without a solution","A relaxed diagram whose last layer is empty, so that best_value() is None, is exact, also if nodes were merged on the way. Without a barrier its subproblem is then closed: no completion is better than best_lb.","every problem, residual, width of at least 1, ranking, iteration and sort order, both diagram types","the other properties say what follows from is_exact(), not when it must hold; a diagram in which everything was pruned must not be branched on",["src/mdd/with_all.rs: has_exact_best_path, _is_exact", "src/mdd/with_barrier.rs: has_exact_best_path"])
with open('/verif/properties.jsonl','w') as f:
    for x in P: f.write(json.dumps(x)+"\n")
print(len(P))
