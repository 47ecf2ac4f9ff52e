# A Lean 4 model of dns-groot/groot

## 1. Layout

| directory | contents |
|---|---|
| `lean/Verif/Model/*.lean`  | executable model of the C++ code, function by function; every definition cites file and lines of `/repo` |
| `lean/Verif/Spec/*.lean`   | small independent specifications (no use of model helpers except the shared data types) |
| `lean/Verif/Lemmas/*.lean` | helper lemmas and invariants |
| `lean/Verif/Props/*.lean`  | the property theorems `Cnn_...`, each with a non-vacuity `example` |
| `properties.jsonl`         | the English properties (generated by `tools/props.py`) |
| `MANIFEST.json`            | property -> theorem names, status |
| `seeded/LOG.jsonl`         | wrong-program experiments |

## 2. Modelling decisions

* C++ byte strings are `List Char`; a name (`vector<NodeLabel>`) is a list of labels, root-most first, as in the code.
* `std::bitset<13>` is `BitVec 13`. Indexing it with the enumerator `N` (=13) is undefined behaviour for `operator[]` and an
  exception for `set`; both are explicit outcomes.
* Outcomes: `Res α = ok a | exit | throw | ub`. `exit` is `exit(EXIT_FAILURE)`, `throw` is an escaping C++ exception (caught in `main`, the
  run ends without output), `ub` is undefined behaviour (bad index, empty optional, end iterator).
* boost graphs are lists of vertices indexed by descriptor with out-edge lists in insertion order; `unordered_map`s whose iteration
  order is never observed are association lists.
* Recursion that is not structural in C++ is modelled with fuel (`none` = not finished) and a theorem shows that enough fuel always exists.
  The mutually recursive graph construction is a depth-first work list (the same order as the C++ recursion, since all the functions return `void`
  and the only values kept across a recursive call are immutable).
* JSON values are structured `Violation` values; logging is omitted; `int`s that only count are `Nat`.
* Threads: an explicit small-step interleaving model (sequentially consistent; the lock-free queue may fail spuriously as long as
  the consumer has not yet observed the termination flag).

## 3. Properties: what is modelled and how it is proved

| id | model | proof |
|---|---|---|
| C01-C02 | `stringToLabels`, `labelsToString` (utils.cpp) | induction over characters, characterisation of the scanner |
| C03 | `subDomainCheck` loop | equivalence with list prefix |
| C04 | `lengthCheck` loop | induction, against the length of the printed name |
| C05 | `stringToType` table | case analysis on the finite table, all other strings by default branch |
| C06-C07 | `compareRRs`, `RR.eqv`, `rrHash`, `EC.eqv` | induction over the erasing loop; permutations modulo equality |
| C08-C12 | vertex table + child maps, `addRecord` | representation invariant (ghost names of vertices), refinement to the log of accepted records |
| C13-C17, C21 | `lookup` | refinement to `Spec.lookup` over the log; the rest are corollaries |
| C18-C19 | `addGlue`, `matchNsGlue`, `checkGlue` | induction over lists / tree traversal |
| C20, C60-C65 | lexer, parser state machine, loader | invariants over token sequences; `C20_loaded` puts membership of records at load time; concrete witnesses for disagreements |
| C22-C26, C29 | label graph, `searchNode`, `subDomainECs`, `generateECs` | fuel/termination measure, invariants, induction over the tree |
| C27-C28 | zone look-up, resolution step | lookup congruence for fresh labels; simulation |
| C30-C35 | `build` work list | finite universe measure; invariants over work steps |
| C36-C37 | `checkForLoops`, `enumeratePaths` | induction on unused vertices |
| C38-C53 | `checkXxx` functions | loop characterisations |
| C54-C55 | interleaving transition system | inductive invariant over all reachable states |
| C56-C59 | `setJob`, `metadataOk`, file writers | direct, induction over histories |
| C66-C68 | `runSequential` (class generation, graph building, all checks) | composition: coverage (C24, C29), bridge from a class to its members (C27, C28), graph = resolution relation (C33), paths = complete trails (C37), checks exact (C39-C43) |
| C69 | the same, with DNAMEs | every function shown to return `ok` once fuel exceeds a measure (C23, C30, C36-C38, C53) |
| C70 | `setContext` + `setJob` | the loader invariant (C64) gives the hypotheses of C66-C68 |
| C71 | one class's path reports, with DNAMEs | graph paths = routes (C36), each check's exactness (C39-C48) turned into statements about transcripts (`Spec/Outcome.lean`) |
| C72 | one class's final-answer reports | the ends of graph paths = ends of routes, then C49-C52 |
| C73 | one class's loop report | C37 with the circle read off the reported path |
| C74 | the producer threads | small-step semantics of the recursion; a thread whose vertices no other thread visits behaves as if alone (simulation), so the interleaving projects to the queue system of C54; disagreements by concrete schedules |
| C75 | `Main` over all jobs, sequentially and under schedules | induction over the list of jobs; the label graph and the driver's job are restored or reset between jobs; C55 and C74 for the threads |
| C76 | the text of the output file and of lint.json (nlohmann's objects, order, dump, UTF-8 check) | an independent JSON reader (`Spec/Json.lean`, after RFC 8259) reads back every dumped value; the entries of each object are listed in the specification; the order on JSON values is a strict total order, so the set's traversal depends on its elements only; UTF-8 as the encoding of scalar values (RFC 3629) |
| C77 | nothing new; all ways a string of the input takes to a report | a kind of text (`TextLike`: contains ASCII, closed under joining, cutting at ASCII characters and lower-casing) that holds of all input strings (`Spec/Text.lean`) is carried through tokenizer, parser, label graph, zones, resolution, checks and reports; UTF-8 and "made of ASCII and input characters" are such kinds |
| C78 | reading the JSON values of metadata.json and the job file (`Model/Input.lean`: nlohmann's `find`, `count`, const `operator[]`, conversions and range-`for`) | `Spec/Input.lean` says declaratively what a value says (a relation, proved single-valued); the JSON-level functions equal the earlier model on values that say something and never succeed on others, so C54-C77 carry over |
| C79 | a whole run of a job (`Driver.runSequential`), DNAMEs included | `Spec/Run.lean`: the outcome of a task (C71-C73 for a class, C53 for a structural check); the run is the concatenation of the outcomes of its tasks, and by C24 the tasks include the exact class of every known name in scope; from files by the C69 argument |
| C80 | `loadZone`, `setContext` (C60-C62, C64) on whole files | `Spec/File.lean`: lines as entries, the records they offer, which are kept and why not (no parser state, no graph); induction over the logical lines of the file with the defaults, the zone's log and the issues as invariant; `C80_text` for lines given as text |
| C81 | C66-C68 for the checks of final answers | `Spec/Final.lean`: where a resolution ends, without classes, graphs or simple paths; circles can be cut out of a sequence of steps, so the ends of the examined resolutions (C72) are all ends; ends of a class and of its members correspond (C28), ends for fewer types occur among those for more |
| C82 | C66-C68 for delegations | `Spec/Delegation.lean`: servers consulted about a name (a least fixed point over referrals), lame and inconsistent delegations in terms of names and zone contents; a chain of referrals gives a complete resolution ending at the child (circles are cut out), the child's answer ends it, so it is the delegation the check compares; conversely an answer with NS records for the owner of a referral comes from the apex of the child's zone |
| C83 | C66-C68 for unfinished resolutions, and aliases | `Spec/Watched.lean`: a resolution watched to its end, aliases. Unless resolution is circular (C67), any route extends to a complete one (`route_completes`), and the counted and sought things only grow with it (also aliases, the second use of a record for a name at least as long, and names that become too long); conversely a class's path narrows to a route of the member of the same shape, which is complete unless it repeats a step. |
| C84 | C66-C68 with DNAMEs | `Spec/Dname.lean`: `Flat` (no DNAME leads strictly beneath another; beneath one the class hides behaviours, `C28_disagreement_nested_dname`), the names a class stands for, `Fits` (no over-long rewriting: a member may overflow where its class does not). A member's resolution is mirrored step by step by the class's, where names agree up to the part below the class; the reported rewritings outside allowed domains are true of members if the allowed domains are known names. |
| C85 | `Parser`: TTLs | `Spec/Numbers.lean`: the number at the beginning of a word. `strtol` and `stoi` as modelled agree with it for all words; a line is followed from its text to the next. C62 and C80 allow signed TTLs of the whole range of `int`. |
| C86 | the whole program (`programJ`) | `Spec/Program.lean`: the world the files say (by C80), what can be wrong with a name (`Problem`), what a report says of a name (`Warranted`); joins C80 (files to zones), C57/C78 (job values to jobs), C66-C68, C81-C83 (verdicts for names), C75 (jobs alone) and C76 (output text) |
| C87 | C86 for a run over given zones | `Spec/Inhabited.lean`: room for a fresh label below every owner; a class is either a known name, or a known name and a label no file has, which is then given |
| C88 | C81 and C82 with DNAMEs | `Spec/Redirect.lean`: the types asked for about a name (`AskedWith`, by the longest part of the name that is known, DNAMEs followed). The mirroring of C84 carries ends of resolutions and referrals between a member and its class; class and member are asked about with the same types by the exactness of the label graph search (C22, C24). |
| C89 | C86 with DNAMEs | `Spec/Whole.lean`: what can be wrong with a name (`Trouble`), what makes a report true of a name (`Justified`) and of a class (`Sustained`). Joins C80 (files to records), C84 and C88 (classes and reports with DNAMEs), C75, C76 and C79 (reports to output). Classes are inhabited (`C89_inhabited`) unless they are those of the names below a name without room; a report about rewritings outside the allowed domains is shown to be true only if the domains are known names, since classes do not tell others apart (for the same reason aliases are shown to be complete for known canonical names). |
| C90 | C89 with threads, and that the program ends | `Spec/Threaded.lean`: good input (`GoodInput`), the program under its threads (`Threaded`, from C75's `Schedules` and the writer of C76). What is loaded from files each of which is a zone (`load_zones`) meets the hypotheses of the termination theorems (C42 to C51, C69), so the run in turn ends (`C90_ends`); threads can end by C74/C54; the items of a job are a permutation of those found in turn, so the account the output gives of the jobs, from which C89 follows, is the same. |
| C91 | The structural check of the whole program | `Spec/StructuralRun.lean`: the zones that hold a name, in file order, and the pairs of them that disagree (`disagreements`, from the `comparisons` of C53), over the zones read from the files (`worldOf`). The tasks of a job with the check on are one per known name below the domain (`C91_tasks`, `C91_run`, from the class generation of C29 and the check of C53; these two hold with DNAMEs, too). The log of a whole run is related to the files by tagging each record with the number of its file (`Lemmas/Tagged.lean`); the rest is C90's account of the output, at a position of the job list (`AccountAt`). |
| C92 | Record statistics | The counters incremented are part of the parser state, those of a file are added to the context's (`addCount`, `tally`, `mergeCounts`). `Spec/Stats.lean` says under which keys one offered record is counted (`counters`). For arbitrary files by the loader invariant of C64 extended with the counters (`Tallied`: the keys incremented are those of the records kept, and one refusal key for each of the others); for files of standard lines by the account of C80 (`countersFrom`). |
| C93 | Only what was asked for is reported | `Spec/Asked.lean` says which violations answer a property (`Fulfils`) and which a run may report (`Permitted`). No hypothesis about the input: by following every check (`Yields`), and for the threads by an invariant of the transition system (tasks in the queue, outputs pending and collected, frames of the producers). |
| C94 | The program run without a job file | `Spec/Default.lean` states the job the program then runs and what it forbids; `Props/Default.lean` shows that running it is running a job file with one object that asks for the same things, so C90 applies, and reads off what the report may contain. |
| C95 | Job statistics | `Model/Summary.lean`: the accumulators of `WriteStatsForAJob` (without the median, a library estimate that depends on the order). `Spec/Summary.lean`: what the figures should be. C54/C74 give that tasks and sizes received are permutations of those of the run in turn; C31/C33 turn nodes and edges into visits and steps; max, min, sum and number do not depend on the order. |
| C96 | Process and files | `Model/Process.lean`: `main` as a list of writes (open = empty the file, append) and an ending; issues are written to lint.json while the zone files are parsed. `Spec/Process.lean`: what may be seen on a disk (`Seen`: after any number of writes or within one), which values are read. The writes follow the functional model of C76/C78 (`Follows`: a simulation with the state of lint.json); no proper prefix of a JSON list reads as JSON (`Lemmas/JsonPrefix.lean`). |
| C97 | Order of the zone files | Two contexts are `SameAnswers` if every server is known to both or neither, and its most specific zone for a name answers every question alike (`relevantZone_spec` and uniqueness of the longest origin, which needs `OneZoneEach`); then `exec` builds the same graph for every question, up to the numbers of zones in calls to be made. The classes depend on which records there are only (C24, C29). `relist`: good input stays good input. Structural reports: comparisons are carried over as a set (`Covers.disagree`). |
| C98 | Empty report iff nothing is wrong | `Spec/Exact.lean`: `Faulty` (a loop, or C89's `Trouble`), `Ample` (room), `ExactCheck` (checks whose reports are true of each name of the class; left out are `LameDelegation`, `DelegationConsistency` and `InfiniteDNameRec`, whose reports are made once and may be about the name above or about repeated records; a missing response and `AllAliases` are covered for jobs about one name, because where nothing is expected below a name the program asks for all types, not for those of the job). One direction is C90 and C91 `clean`, the other C91 `all_true`: with room every reported class is inhabited, so a true report makes some name faulty. `C98_ample` gives `Ample` for files without DNAMEs. |
| C99 | Only a malformed number aborts the process | `Spec/Abort.lean`: `Unnumbered` on the JSON values of the job file. The ending `aborted` of C96's `process` is an exception of a task. `Lemmas/NoThrow.lean` goes through every function that a thread runs (class generation, interpretation graph, path enumeration, every check, the structural comparison) with the predicate "no exception, and the value has P": the exceptions of `typeToString` for records of an unsupported type do not come up because such records are in no answer, the one of `zoneNs.at` because every zone is entered with its server. Then C99_task for a single task with any label graph and C99_aborted for the process. C99_fatal is the converse: were there a result, no class would have a path, and then the same job with a check that every path violates would report nothing, against C84's completeness. |

The statements of theorems use only the shared data types, `Spec/*` definitions and the API entry points being described. Where a statement mentions a
printed text (reports, issues), it is the independent printer of `Spec/Names.lean` (`showQuery`, `showRecord`, `showTypes`, `showSplit`).
A few small functions of the model also occur inside specifications, because they are the API's own vocabulary: they are pinned down by theorems of
their own against descriptions that do not mention them: reading a name from text (`stringToLabels`, by `C02_reads`), sets of record types (`C05_sets`),
changing case (`C63_letters`), the vertex of a name in the label graph (`nodeOf`, by `C22_nodes`).

## 4. Trusted base

* Lean 4.33.0's kernel; the axioms listed in section 6 and no others (no axiom of our own, no compiled evaluation).
* Our reading of `/repo` (C++ semantics, and the third-party containers: `std::vector`, `std::unordered_map`, `std::map`, `std::bitset`,
  `boost::adjacency_list`, `nlohmann::json` (modelled for writing: `Model/Json.lean`; its traversal of `std::set<json>`, and that `unordered_map` lists the records of an
  infinite rewriting in an order that depends on them only, parameter `ord`), `moodycamel::ConcurrentQueue`).

### Modelled

| source | modelled | not modelled |
|---|---|---|
| `utils.cpp` | all label, type and record helpers, `CompareRRs`, lint/violation file writing | logging |
| `node-label.*`, `resource-record.*`, `equivalence-class.*` | all | hash values (only compatibility with equality) |
| `zone-graph.*` | `AddResourceRecord`, `QueryLookUpAtZone`, glue functions, lint | hash-map growth inside `unordered_map` (the *threshold* optimisation itself is modelled) |
| `label-graph.*` | `AddResourceRecord`, `ClosestEnclosers`, `SubDomainECGeneration`, `GenerateECs`, structural check | DOT output |
| `interpretation-graph.cpp`, `interpretation-properties.h` | construction, `CheckForLoops`, path enumeration | DOT output |
| `properties.cpp` | all fourteen checks, the JSON object of each violation | |
| `ec-task.cpp`, `structural-task.cpp`, `driver.cpp` | `SetContext`, `SetJob`, `GenerateECsAndCheckProperties` (sequentially and as a transition system), violations file (its bytes), statistics logged after each job (C95) | the median in the statistics |
| `zone-file-parser.cpp` | lexer (as the longest-match automaton of the regular expressions), parser state machine, relative names, loader, record statistics | boost::lexertl internals |
| `bin/groot.cpp` | loading, all jobs one after the other, default job, total of classes, glue check; output.json and lint.json as bytes; `main` with the order of all writes, its exit status and what is left of the files when it ends early (`Model/Process.lean`) | parsing of the command line by docopt, logging, timing, failures of writes; file names in lint objects are those given in metadata.json, without the directory |

### Concurrency assumptions

Sequentially consistent memory; the queue is linearisable, and a dequeue may fail spuriously while the producer is running but not after the
consumer has seen the termination flag and all enqueues have completed. The parallel part of `SubDomainECGeneration` is modelled twice: in
sequential order (used by C22-C73), and as threads whose every access to the shared `len` field is a separate step (C74, which also says when the two agree). By the
C++ standard, two threads accessing the same `len` field without synchronisation have undefined behaviour; C74 assumes they merely interleave.

### Integer ranges

Counters are `Nat`; TTLs are taken as 32-bit (`toU32`); `std::stoi` overflow is an outcome (`throw`). Vertex descriptors and sizes never overflow in the model.

## 5. Disagreements between the properties a user would expect and the code

Each is proved by a concrete run of the model where a theorem is named.

1. `check_structural_delegations` is never reset by `SetJob`: the structural check stays on for later jobs (`C56_disagreement_structural`).
2. `DS` is accepted by `GetTypeIndex` but has no type: looking up at such a node is undefined behaviour (`C65_disagreement_lookup`), and a rejected DS record
   throws while the lint message is prepared, even with linting off (`C65_disagreement_rejected`). A job with an unknown or lower-case type name throws
   (`C57_unknown_type`); `main` catches, prints and still exits with 0.
3. In a file whose SOA owner is the root, the next record stops the program (`C20_disagreement_root`); with several SOAs the last accepted one is the origin
   (`C20_disagreement_two_soas`).
4. Names of exactly 253 bytes are loaded but never enumerated (`C24_disagreement_253`).
5. Zone files: a last line without newline is dropped (`C61_disagreement_last_line`); owners spelt like a type are misread (`C62_disagreement_owner`); TTLs with
   units are not understood (`C62_disagreement_units`); `@` as a target is not expanded (`C62_disagreement_at_target`); `a\\(` opens a parenthesis
   (`C60_disagreement_escaped_paren`); control words are case-sensitive (`C63_disagreement_control`); a SOA with a blank owner loses the zone but keeps its labels
   (`C64_disagreement_blank_soa`); a SOA with an over-long owner gives an empty zone containing every name (`C64_disagreement_empty_zone`); `$ORIGIN`/`$TTL`
   without argument read past the end; a quoted text may span newlines; class CH is kept.
6. ZeroTTL does not filter by the requested types (`C49_disagreement_types_not_filtered`).
7. Records that differ in TTL only are equal under `==` but both stored.
8. `"Types": []` gives an empty type set and an undefined read (`C38_disagreement_no_types`); so does an empty list of top servers with ResponseValue
   (`C38_disagreement_no_top_server`).
9. Paths that run into a loop are not checked; a CNAME path may repeat its last vertex (`C37_disagreement_repeated_node`).
10. A negative Hops bound never fires (`C39_negative_bound`).
11. With DNAMEs the same class may be generated twice (`C26_disagreement_dname`), and a DNAME beneath a DNAME's target hides behaviours of member names from the
    class (`C28_disagreement_nested_dname`): C66-C68 are therefore claimed for zones without DNAME, and C84 for zones without nested ones.
12. The order of alias groups in the output depends on the schedule (`C55_disagreement_group_order`).
13. Whether a comma is written before an issue in lint.json depends on the number of lines so far; it works because an object takes at least three lines
    (`C76_lint`; for one-line issues it would not, `C59_disagreement_one_line`).
14. ResponseReturned stops at the first end node with a non-existent query; ResponseValue counts NXDOMAIN as a mismatch even when nothing is expected.
15. Structural check: a zone holding any non-NS record at the name with the longest origin counts as a parent with an empty NS set.
16. LameDelegation compares query *names* with the class name, so a class's verdict can differ from a member's when a rewrite leads back to the name.
17. Classes near 252 bytes may have no legal member; a report about them is vacuous.
18. `\\.` is treated as an escaped dot; a name ending in an escaped dot loses its last label; a label consisting of one dot (from `..`) confuses the root test.
19. Producer threads for different closest enclosers share the scratch field `len`. When they meet (two out-of-sync copies of a DNAME whose targets lead to a common
    name), a class can get lost (`C74_disagreement_lost`), marks can stay in the label graph and make a later job lose a class (`C74_disagreement_marks`), and the
    generation may recurse forever (`C74_disagreement_endless`).
20. An unknown type in a later job makes `Main` throw after the earlier jobs have been run: their reports, written only at the end, are lost, and `main` catches the
    exception and returns 0 (`C75_disagreement_bad_job`).
21. A byte that is not UTF-8 in a reported string makes nlohmann's `dump` throw: the output file is cut off there and is no JSON text (`C76_output`,
    `C76_disagreement_output`); in an issue, with linting on, it aborts the run before any job, although without linting the run finishes (`C76_disagreement_lint`).
22. A job file that is a single job instead of a list of jobs makes the program throw (`C78_disagreement_lone_job`); a job without "Domain", "SubDomain" or "Properties", or
    a property without "PropertyName", is undefined behaviour (`C78_disagreement_missing`); limits are reduced modulo 2^32 (`C78_disagreement_wrap`).
    A list that is assigned `{}` and never extended is written as `null`.
23. A record line given up for a word before its type (a TTL with a unit, say) still changes the owner for the following lines, to the name as written and not
    completed by the suffix (`C80_disagreement_owner`).
24. For unknown names below a known name without a wildcard, a job about subdomains asks for all types: records of types that no property lists are reported
    (`C81_disagreement_types`).
25. A consistent delegation of a name that owns address records is reported as inconsistent if addresses are asked for as well: the child's own addresses
    at the name are compared with the parent's glue (`C82_disagreement_own_address`).
26. An alias whose resolution ends in a loop is not listed as an alias of any canonical name; only the loop is reported
    (`C83_disagreement_alias_in_loop`).
27. A negative TTL is accepted and becomes one of more than 68 years (`C85_disagreement_negative`); a TTL of 2^31 or more, which RFC 2181 has treated as
    zero, stops the program (`C85_too_large`).
28. Below a name of 252 bytes the program tests, and reports about, a class to which no legal name belongs (`C87_disagreement_overlong`).
29. With DNAMEs one name may be asked about twice with different types: as one where nothing is expected and as one covered by a wildcard
    (`C88_disagreement_twice`).
30. Below a DNAME a structural report names another name than the one the zones disagree about: with `d.x` redirected to `x`, a job about `s.d.x` reports an
    inconsistency at `s.d.x`, of which no zone has any record; those listed are of `s.x` (`C91_disagreement_alias`).
31. The record statistics also count the records of files that are not loaded as zones (`C92_disagreement_no_zone`).
32. The job run without a job file contains a QueryRewrite check that can never report anything, since it allows the root (`C93_disagreement_default_rewrite`).
33. "Infinite DNAME recursion" is reported for rewritings that end: `u.d.com` is redirected to `u.t.com`, an alias of `v.d.com`, redirected to `v.t.com`,
    where there is an address. The record at `d.com` being used twice is enough (`C89_disagreement_finite`).
34. The process ends with status 0, and leaves the output file of an earlier run in place, if metadata.json is missing or cannot be read
    (`C96_disagreement_status`): a script that looks at the status and the file takes the old report for the new one.
35. With `--lint --output=lint.json` report and issues are written to one file, which then is not JSON (`C96_disagreement_same_file`).
36. Two different zone files of one server with the same origin: the first one listed is asked, the other never, without a word; swapping them in
    metadata.json swaps the verdict (`C97_disagreement_same_origin`).
37. The "Value" of Hops and Rewrites is converted to a number when the check is called, not when the job is read, and so in a thread where nobody
    catches the exception: a job with "2" for 2 aborts the process, after the jobs before it have been run and before anything is reported
    (`C96_disagreement_number`). If the job has no class to test, nobody notices. In the model the check of such a job is `PathFn.misfit`; what is
    proved about runs that end assumes numbers where numbers are needed (`Numbered`, in `Acceptable` and `Testable`).

## 6. Axioms

`#print axioms` over all theorems of `MANIFEST.json`: none for `C02_root`; `propext` only for `C07_record_eq`, `C07_hash`, `C07_query_eq`, `C35_substitution`,
`C55_disagreement_group_order`; `propext, Quot.sound` for `C01_*`, `C02_final_dot`, `C03_*`, `C04_*`, `C06_compare`, `C07_record_equivalence`,
`C07_query_equivalence`, `C24_disagreement_253`, `C28_same_answers`, `C28_fresh_of_unknown`, `C58_sanity`, `C65_label_graph`; `propext, Classical.choice, Quot.sound`
for all the others.

## 7. Wrong programs

`seeded/LOG.jsonl` records every experiment: the model is edited as a bug would edit the program, rebuilt in a scratch copy, and the theorems that fail to prove are
listed. An experiment counts as caught only if a theorem of the claim it breaks fails.
