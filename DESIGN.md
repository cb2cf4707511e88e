# Design: a Lean 4 model of vcoppe/ddo-barrier

## What is modelled, in which module

| Code | Model | Notes |
|---|---|---|
| `isize` arithmetic | `Verif/Basic/ISize.lean` | values are `Int`; `saturating_add/sub` are clamped to `[MIN, MAX]` exactly |
| `src/mdd/node_flags.rs` | `Verif/Model/NodeFlags.lean` | `BitVec 8`, bit for bit |
| `src/utils.rs`, `examples/psp/utils.rs` | `Verif/Model/BitSet.lean`, `Verif/Model/Matrix.lean` | words are `BitVec 64`, a bit set is `List (BitVec 64)` |
| `src/prelude.rs` | `Verif/Model/Prelude.lean`, `Verif/Model/Names.lean` | traits become structures of functions; option names |
| `src/frontier/*` | `Verif/Model/NoDup.lean`, `Verif/Model/Frontier.lean` | the updatable heap is modelled field by field |
| `src/mdd/with_all.rs`, `src/mdd/with_barrier.rs` | `Verif/Model/Mdd.lean` | one model with a `Variant` switch where the two files differ; arena of nodes and edges, linked inbound lists, look-ups of thresholds and a log of the thresholds stored |
| `src/solver/parallel.rs` | `Verif/Model/Parallel.lean` | labelled transition system, one step per critical section |
| `src/solver/barrier.rs` | `Verif/Model/Barrier.lean` | same, with the shared barrier |
| `src/solver/barrier.rs`, `src/mdd/with_barrier.rs` | `Verif/Model/BarrierFine.lean` | one step per access to the barrier (one acquisition of the lock of a layer), explicit mutex; built from the parts of the models above |
| workers that panic, in both solvers | `Verif/Model/Crash.lean`, `Verif/Model/Stray.lean`, `Verif/Model/Ask.lean` | for builds that unwind: panics in a compilation, for want of a cell in `upper_bounds`, in `interrupt()` |
| `src/xputils.rs` | `Verif/Model/Names.lean`, `Verif/Model/Report.lean`, `Verif/Model/Print.lean` | option names; the gap and what a run prints, character by character |
| `f32` | `Verif/Model/F32.lean` | conversion from integers and quotients, rounded to nearest, bit by bit |
| reading of the instance files in `examples/*` | `Verif/Model/Text.lean`, `Verif/Model/Readers.lean`, `Verif/Model/Bytes.lean` | trimming, words and numerals of `std`; the three readers, line by line; UTF-8 and lines of bytes |
| `examples/tsptw` | `Verif/Model/Tsptw.lean` | travelling salesman with time windows: dynamic program, merge operator, rough bound |
| `examples/psp` | `Verif/Model/Psp.lean` | pigment sequencing: tables, dynamic program, merge operator, rough bound |
| `examples/srflp` | `Verif/Model/Srflp.lean` | single row layout: symmetrisation, dynamic program, merge operator, rough bound with `f32` division bit by bit |
| `src/heuristics/mod.rs` | `Verif/Model/Widths.lean` | `Fixed`, and `NbUnassigned` for the example `psp` |
| `examples/*/main.rs`, arguments | `Verif/Model/Program.lean` | options with defaults, name of the run, which solver is run with which parameters |
| bit sets used as numbers in the examples | `Verif/Model/Bits.lean` | a set is a `Nat` |

Specifications that do not mention the model live in `Verif/Spec/*`, the property theorems in `Verif/Props/*`, helper lemmas in `Verif/Proofs/*`, concrete instances in
`Verif/Examples/*`.

## Modelling decisions

* **Non-determinism.** The iteration order of hash maps and the result of `sort_unstable_by` on ties
  are *oracles*: functions of (depth, list) that return a permutation of the list.
  Theorems hold for every oracle.
* **Concurrency.** A critical section is one atomic step of a labelled transition system; the
  schedule is an arbitrary list of labels. Compilations run between critical sections and are functions of the
  values read at the preceding one.
* **Reads of the barrier.** In the barrier solver a compilation reads the shared barrier without a lock around it. A thread reads the threshold of a state at most
  once per compilation, so all that the other threads can do is to decide what it sees: this is the optional *view* in the label of a step. Theorems about several threads allow
  arbitrary views; refutations use none, so that they are interleavings of the real program. That this is right is a theorem: `Model/BarrierFine.lean` takes every access to
  the barrier as a step of its own, its runs are runs with suitable views (`lock_state_of_views`), the runs without views are among them (`lock_sharp_possible`), and with
  one thread there are no others (`lock_single_sharp`). `get_workload` also has a view (`View.pop`), because threads that compile store thresholds while another one holds the mutex.
* **Panics** are explicit (`none`/error outcome) where the code can really panic (`max_width = 0`,
  `upper_bounds[thread_id]`), and separate theorems show that indices stay in range elsewhere.
* **Machine integers**: saturating operations saturate in the model. Plain `+`/`-` on `isize` are exact
  under the explicit hypothesis that path values fit (`WellFormed.bounded`). Where an example subtracts below zero in `usize`, a separate definition says when, and a theorem says whether it matters.
* **Two levels of hypotheses.** `BaseCfg` is what a termination or safety theorem needs (layered problem, widths, oracles); `GoodCfg` adds an admissible rough bound and a sound relaxation.
  The examples are shown to satisfy the one or the other, so that the theorems about the solvers apply to them.

## Properties: how each is proved

* C01 - C05: direct proofs over all words / lists / strings.
* C06 - C11: heap invariant + consistency invariant (`pos`, `heap`, `states`, `recycle_bin`) by induction on the
  operation list, refinement to a finite map from states to (value, path, ub).
* C12 - C19, C21, C22: invariants of the compilation loop, collected as facts about the finished diagram
  (expansion, merging, value of a node = maximum over inbound edges, exactness); then a backward/forward induction on layers.
* C20, C42, C51 (cutset `Frontier`): false in the code; concrete diagrams and runs refute them, and partial theorems are proved with an extra hypothesis (`UniqueTerminal`).
* C23 - C34, C58: inductive invariants of the transition system over every schedule; termination via a multiset order.
  C29, C30, C32 are false in the code: a concrete schedule refutes them, a partial theorem covers the rest.
* C35 - C41, C44, C45, C47 - C49: invariants of the barrier solver; optimality for one thread, safety for several threads.
* C43: false in the code: with two threads the barrier solver can return a solution that is not optimal (`barrier_two_threads_not_optimal`), even if calls of `process_one_node` never overlap
  (`barrier_one_processing_not_optimal`). The invariant for one thread carries over to any number of threads as long as at most one of them holds a node (`barrier_turns_optimal_partial`).
  Without this restriction the culprit is `min(ub, node.ub)` in `enqueue_cutset`: with several threads the bound of a node may be too small, because a threshold of another thread cut off what
  it should count, and its children inherit the error. In a run in which no improving bound is lowered in this way the optimum is found with any number of threads and any schedule
  (`barrier_uncapped_proved_partial`); the invariant lets thresholds rely on deeper or higher thresholds of the whole run, in whatever order they were stored, and is closed at the end by induction along this order.
  At the level of single accesses (`lock_uncapped_proved_partial`) nothing need be assumed about what threads see: the simulation carries a predicate on what has been in the barrier, and
  everything that was in the barrier at any time of a finished run was stored for a node given to a thread or by a relaxed compilation that has ended.
* C80 - C82 (interleavings of single accesses): a simulation of the fine model by the one with views; termination by a lexicographic order (measure of the coarse model, then how far each thread is
  within its compilation). C81 is false: comparison and store are made under two locks.
* C83, C84 (calling a solver again): `again` is the start of a further call on the state the last one left behind (the root is pushed again, nothing is reset); a *session* is any sequence of calls
  (`Spec/Session.lean`). The invariants of the solvers are preserved by `again`; for the barrier solver the clause that relates the barrier to the lowest active layer only holds in the first call.
* C87 (best first): the invariants of the solvers, and that children never have a larger bound than their parent.
* C88 (the statistics): the layers of a diagram, and what every step of a worker adds to the counters.
* C89 (restriction): a property carried through the loop of the compilation (`compile_inv`), and the fact that a layer is sorted before it is cut.
* C90 (relaxation): redirecting arcs changes only the value of the merged node (`mergeAll_value`); that the layers are unique follows by induction once no two states of a layer tie. The diagrams with barrier exempt the children of relaxed nodes from pruning, so the description lets nodes that fail the test remain (`Sifted`).
* C91 (cutsets): the sweeps only raise `valueBot`; that it is attained by a path is a second invariant next to that of C20 (`Tight`). The `min` with the best value in `drain_cutset` never matters: value + longest path is at most the best value.
* C92 (thresholds): `Limit` gives the limits node by node, `Threshold` the greatest lower bound over all paths; the sweep of the code computes it edge by edge with saturating subtraction, and the bound on costs excludes that it saturates below (`theta_low`).
* C93, C94 (printed table): `Spec/Print.lean` says what the cells of a line are, what a rounded number is, and what it means that lines line up; `Model/Print.lean` prints. Lines are taken apart by `split` and `trim` (`cells_split`), so that the cells are unique.
* C95, C96 (lines): `LinesOf` (`Spec/Text.lean`) relates a text to its lines, `SameLine` lines that differ in white space only; `Text.lines` is the model of `BufRead::lines`.
* C86: index arithmetic on the vector behind the matrix.
* C85: the solvers' theorems for at least one thread and width 1; runs that go wrong for zero.
* C46, C50: the counterparts of C29 and C32 for the barrier solver.
* C52 - C57, C59 (TSPTW), C60 - C67 (PSP), C68 - C73 (SRFLP): the dynamic program is shown to describe the combinatorial problem (solutions = tours / plans / layouts), the merge operator to be sound and
  the rough bound to be admissible where they are; the theorems about the solvers then say what the program returns. Where a part is false, an instance refutes it.
* C74 (single precision): the model against the definition "nearest representable number, ties to even", over the rationals.
* C75 (the printed gap and report): case distinction on the bounds, and the theorems about the solvers.
* C76 - C79 (files): `Spec/Text.lean` says what words and numerals are and `Spec/Files.lean` what a well-formed file is, by relations between a text and its content; the readers return that content. For TSPTW
  the numbers pass through `f32`; the error is bounded, and instances show that it matters.
* C97 (deadline): `Model/Timeout.lean` is the transition system of the two threads of `timeout`, `Spec/Timeout.lean` lists the histories that can be seen from outside.
* C98 (no work twice): `Spec/Once.lean` says when two partial assignments exclude each other and lists the nodes a schedule gives to workers. It uses a new field of `Core`: the nodes of a layer have different states.
* C99 (whole programs): `Model/Program.lean` models the options, `Path::file_stem` and the `main.rs` files; `Spec/Program.lean` says what a path names and what a line says. The theorems put together the readers (C77-C79, C95), the solvers (C25, C31, C35, C47), the examples (C56, C65, C72) and the table (C93). `structopt` splits the arguments; it is not modelled.
* C100 (widths): two width functions that agree where a variable is free give the same runs (`width_where_free`), because a compilation that starts without free variables never looks at the width. Products wrap as in release builds.
* C101 (no work twice, with a barrier): the invariant of C98 with the nodes whose cutset is computed but not yet pushed. For the frontier cutset it follows from C49, because the same decisions lead to the same state and value.
* C102 (work of the example programs): C98 and C101 bound the explored counter by the number of partial assignments; these are counted level by level (`Proofs/Count.lean`).
* C103 (bytes): decoding follows `run_utf8_validation` of the standard library and is shown to be the inverse of the encoding of the Lean library; no byte of another character is a line feed, so lines may be cut out before decoding.
* C104 (enough width): `Narrow p w` bounds every layer of states reachable without merging by `w`; then the first diagram is exact, so neither relaxation nor cutset matters.
* C105 (shipped file): the text of `rc_206.1.txt` is embedded in `Props/Shipped.lean`; reading it and the conditions of C104 are checked by the kernel, the six tours are compared one by one; the same for the layout file `Cl5`, whose 120 layouts are compared one by one.
* C106 (rows of the wrong length): `Sheet n rows m` says that a cell holds the number of the latest row that reaches it, and 0 if none does; `Inside n rows` says that no row goes beyond the last cell.
* C107 (release builds of `psp`): `Model/ReadersRelease.lean` reads into vectors whose position is checked, not row and column; the tables of the two builds are related cell by cell.
* C108 (merged states): both directions of what the folds of `RelaxHelper` collect, bit by bit; minima and maxima are attained.
* C109 (panics): a run with panics, minus the panics, is an ordinary run in which some workers are not scheduled any more; the counter of nodes in process stays at least the number of workers that panicked.
* C110 (ties): the node reached by the ways tried so far keeps one that all earlier ones lose to and that no later one replaces; an invariant of the expansion of a layer.
* C111 (more workers than cells): a run with too few cells is matched step by step with a run in which everybody has a cell and a worker without one panics a little later, when it is about to compile; C109 speaks about the latter. With a barrier the counter of busy workers is followed directly: it exceeds their number by the number of nodes lost, and the invariant of C35 holds with that number in it.
* C112 (a printed matrix): the cells are cut into rows; the text of a row contains no line end, and its words are its cells.
* C113 (a time limit after a panic): the flag is set in the step in which a worker leaves its loop, so that with two workers nobody is left; with three, a run of five steps ends in a state from which nothing is possible but spurious wake-ups.
* C114 (a panic of `interrupt()`): a worker that asks for work holds no node and does not count as ongoing; a worker that waits does so because another one is ongoing, which cannot be one in which `interrupt()` has panicked, so that it goes on and wakes the others.
* C115 (which panics make the call hang): both kinds of panics in one run; the counter of nodes in process counts those that are held by workers which panicked, and nothing else keeps a worker parked for good.
* C116 (when `interrupt()` is called): the answers of a run are collected step by step; a step hears at most one, and only `get_workload` after an answer no counts a node.
* C117 (relaxed diagrams without a solution): the bottom-up pass keeps `exact` and the best node; without one `has_exact_best_path` ends at once.

## What was found false

| Claim | Why |
|---|---|
| C20, C42, C51 | with the `Frontier` cutset an exact terminal node that is not the best one is neither reported nor in the cutset |
| C29, C30, C46 | the bound reported at an interruption ignores nodes that other threads hold, and the node that was popped last |
| C32, C50 | `upper_bounds` is allocated before `with_nb_threads` |
| C43 | a thread prunes with a threshold that relies on a node held by another thread, and its nodes get too small a bound; processing one node at a time does not help |
| C81 | `try_update_barrier` compares under a read lock and stores under a write lock taken later: a threshold stored by another thread in between gets lost (`lock_lost_update`) |
| C84 | `interrupted` is never reset: after an interrupted call every later call, also `maximize()`, returns at once |
| C85 | no thread: `Proved` without a solution; width 0: `max_width - 1` panics |
| C53 | TSPTW: without the triangle inequality, `can_succeed` rejects feasible tours (393 of the 467 instances in `resources/tsptw` do not satisfy the inequality) |
| C54, C55, C56, C59 | TSPTW: the estimate of a merged state counts one city too many (`tsptw_estimate_merged_cuts`, `tsptw_repaired_bound`); the cost of a merged state uses the earliest departure; waiting makes the relaxation unsound, and the program returns wrong results |
| C61, C62 | PSP: a demand of 2 counts as 1 (does not occur in `resources/psp`) |
| C64, C65 | PSP: relaxation unsound without the triangle inequality (satisfied in `resources/psp`); with `--cutset frontier` the program returns wrong results also with it, `--solver barrier` because of C42 and `--solver parallel` because of C20 (`psp_parallel_frontier_not_optimal`) |
| C87 | several threads: a thread takes a node of small bound while another one works on the node that leads to the optimum |
| C86 | debug builds: the end of a row is not a legal index, `row` and `row_mut` always panic |
| C67 | PSP: the heap of Prim's algorithm is shared by all sets |
| C66, C73 | `usize` subtraction below zero in the rough bounds of PSP and SRFLP: panics in debug builds, harmless otherwise |
| C68 | SRFLP: asymmetric entries are added, equal ones are not |
| C70, C71, C72 | SRFLP: `f32` quotients make the rough bound inadmissible for large numbers; the program returns a wrong result with the default parameters (the instances in `resources/srflp` are within the range for which the bound is proved); with `--cutset frontier` it returns wrong results because of C20, also with small numbers (`srflp_parallel_frontier_not_optimal`) |
| C75 | the gap is NaN if both bounds are 0, 0 if they are opposite numbers; `abs` overflows if no solution was found |
| C94 | the table never lines up: the `Display` of the solver and of the status uses `write!`, which ignores the width `{:>10}` of the format |
| C96 | the first three lines of a file of the example `psp` are parsed without `trim`: one space after a number makes the file unreadable |
| C77, C78 | incomplete files are accepted: a missing line is read as zeros (SRFLP), or makes the item due in period 0 (PSP) |
| C79 | TSPTW: numbers go through `f32` and are cut off: `40.3113` becomes 403112, `99999` becomes 999990016 (58 of the 467 files contain such numbers); the triangle inequality can get lost |
| C98 | with the cutset `Frontier`, the cutset of a diagram may contain a node and one of its descendants: workers expand the same decisions twice |
| C99 | `tsptw` prints `Proved` for tours that are not shortest (C56); see also C43, C65, C72 |
| C100 | the product of the number of variables and `--width` wraps: with four departments and `--width 4611686018427387904` the width is 0 and the program panics |
| C106 | `Matrix` in `src/utils.rs` does not check the column: numbers that are too many in one row are taken for numbers missing in the next one (`tsptw_rows_mixed`) |
| C107 | release builds of `psp`: a surplus number in a line of demands is counted for the next item (`psp_release_surplus`) |

## Mutations

`tools/mutate.py` applies an edit to a scratch copy, builds it and records which theorems of `MANIFEST.json` are lost; `seeded/LOG.jsonl` is the log.

How to read the field `claim` of the log:

* For the edits of the systematic sweep ("found by a systematic replacement of operators and constants") it was filled in after the build, from the theorems that failed. It is not a prediction.
* In eight records an edit aimed at one claim was first logged under another one, whose theorems did fail. They carry `aimed_at` and a note with what a second build, with the lemmas in the way replaced by `sorry` in the scratch copy, showed: five edits are noticed by the claim they were aimed at, three do not make it false. Older records whose raw output is no longer at hand (about half of the log) could not be checked for this.
* `failed` also counts theorems that are lost only because a lemma they use no longer compiles; `first_errors`, where present, tells where the build stopped. A failure in a lemma shows that the proof notices the edit, not by itself that the theorem is false of the edited program.
A theorem counts as lost (`failed`) if its proof uses a declaration that no longer checks (`first_errors`). This does not show that its statement is false for the
wrong program: a proof of a lemma may also break because of its form. Edits that no theorem noticed are logged with what was added (`tightened`), or as equivalent.

## Trusted base

Lean's kernel; axioms `propext`, `Classical.choice`, `Quot.sound` only. The correspondence between the Rust source and
the model is by reading (every definition cites the lines it models).

Not modelled: opening and reading files (their bytes are decoded, C103), wall-clock time, the `parking_lot` implementation, hashing,
the `binary-heap-plus` crate's internals (its contract is assumed for `SimpleFrontier`).
