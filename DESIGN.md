# Formal model of liblevenshtein-cpp in Lean 4

Pinned source: `/repo` (read as text only; never built or run here). No tool extracts the model from the code: every
definition of the model cites the file and lines it was read from, and the reading is part of the trusted base.

## 1. Layers

| layer | Lean modules | what it is |
|---|---|---|
| specification | `Verif/Spec/*` | edit operations, alignments, least numbers of operations, sorted term lists, term sets of graphs and messages, sequences, command lines; knows nothing of how the code works |
| model | `Verif/Model/*` | the code, function by function, each definition with the `/repo` lines it models |
| proofs | `Verif/Proofs/*` | helper lemmas, invariants, refinements |
| properties | `Verif/Props/*` | the theorems of each property of `properties.jsonl` (named `cNN_…`), with concrete `example`s that meet the hypotheses |

`MANIFEST.json` lists the theorems of each property; `python3 tools/manifest.py` regenerates it (notes in `tools/notes.json`).
A property that is false of the code has a theorem that says so (a negation with a witness, named after what goes wrong),
and theorems with the suffix `_partial` for what holds; its statement in `properties.jsonl` contains the word FALSE.

### Conventions of the model
* `char` is a byte (`UInt8`). `std::string` comparison is unsigned-lexicographic (`char_traits<char>::compare`);
  `std::map<char,_>` is ordered by the platform's `char`, whose signedness `sgn` is a parameter of model and theorems.
* Outcomes are `Except Err`: undefined behaviour (null or dangling dereference, double delete, out-of-range access, signed
  overflow) is `Err.ub`, never totalised away; `Err.diverge` is running out of the step bound `fuel` of a loop or recursion;
  `Err.wrap` is used by the checked-arithmetic model only. `Ends f r` says that `f fuel = .ok r` for every large enough
  bound; theorems that something never ends say that the outcome is `diverge` for every bound.
* `size_t` arithmetic of the transducer is modulo 2^64 (`wadd`, `wsub`); C39 compares it with checked arithmetic.
  Elsewhere (lengths, `_size`, `_term_index`, ids) it is `Nat`; where 2^64 or 2^31 matters a theorem has a hypothesis.
* `new`/`delete` act on explicit memories. Dictionary nodes: `Heap` (contents of addresses, number of allocations);
  `Allocator addr h` says that the addresses to come are non-null, pairwise different and free. Deleted node addresses are
  not handed out again within a construction, which allocates nothing after it has freed something; where a dictionary is
  resumed or read back, each step has an allocator of its own that may hand out what was freed (C102, C103). Positions and states:
  `SMem` with allocators `paddr`, `saddr` that may be any function of the memory that returns a free address (`SAlloc`), so
  addresses are reused; prefixes of a dictionary iterator: a memory of their own.
* Containers (`vector`, `queue`, `stack`, `set`, `map`, `unordered_map`, `unordered_set`) have their abstract meaning;
  ordered ones are sorted lists. `unordered_map::find` on nodes compares hash codes first and then `operator==`, so that
  consistency of the two matters in the model as it does in the code. MurmurHash64A is modelled byte by byte
  (little-endian).

## 2. What is modelled and how it is proved

| code | model | main proofs |
|---|---|---|
| `distance/*` | `Distance`, `Hash` | `DistEval`, `Distance`, `Align`, `Trace`, `DistCost`, `DistanceValues` |
| `memoized_distance` under threads | `Concurrent` | `Concurrent` |
| `transducer/{position_transition,merge,unsubsume,subsumes,comparator,state_transition,distance}` as list functions | `Transition` | `TransIdeal`, `TransEq`, `TransSem`, `StateOps`, `StateSem`, `StateProps`, `Subsume` |
| `transducer/{position,state,state_iterator,merge,unsubsume,state_transition,distance}` with pointers | `StateHeap`, `ListProgram`, `Nested`, `Copies` | `StateHeap*`, `ListProgram`, `Alloc`, `AnyCursor`, `Nested`, `Copies` |
| `transducer/{intersection,lazy_query,transducer}` | `Query`, `QuerySteps`, `Session` | `Forest`, `QueryRun`, `QueryAll`, `QueryCost`, `Session`, `Unroll`, `AnyGraph`, `Relations` |
| the same with intersections as objects, destructors, implicit copies | `Lifetime` | `Lifetime*`, `QueryMem` |
| the same as single memory accesses of several threads | `Threads` | `Threads*` |
| the same with checked arithmetic | `Checked` | `Checked` |
| `collection/{dawg_node,dawg,sorted_dawg,transition}` | `Node`, `Dawg`, `DictThreads` | `Tree`, `DawgMem`, `Builder*`, `DictSem`, `DeleteCost`, `NodeAny`, `FuelBound`, `DictThreads*`, `LateAdd`, `Resume`, `Reuse`, `Abandon`, `Watch`, `AnyOrder`, `Sittings`, `OverRun`, `Second`, `IterGone`, `Many` |
| the recursive calls of `between` | `Depth` | `DistDepth`, `NodeDepth`, `SortDepth` |
| `dawg_node`, `sorted_dawg` with evaluations of `operator==` and of the hash function counted | `BuildCost` | `EqCost`, `BuildCost`, `CodeClash`, `WordNodes`, `BuildMem` |
| `collection/{prefix,dawg_iterator}` | `Iter` | `Iter`, `IterAny` |
| `serialization/serializer.cpp` on messages | `Serial` | `SerialTo`, `SerialFrom`, `SerialRound`, `SerialAny`, `SerialWalk`, `SerialGraph`, `SerialCopy` |
| the same on streams, wire format of `liblevenshtein.proto` | `Wire` | `Wire`, `WireGrammar`, `Joined` |
| `example/src/*` | `Demo`, `DemoText`, `DemoStream` | `Demo`, `DemoText`, `DemoAny`, `DemoStream` |
| `operator<<` of nodes, dictionaries, pairs; of all five on streams with settings, on streams that throw | `Text`, `Stream`, `StreamThrow` | `Text` |
| bodies of the tests in `test/liblevenshtein` | `TestSuite` | `TestState`, `TestNode`, `TestDawg`, `TestRun` |
| `test/utils/file_utils`, `config/rapidcheck_parser` | `TestUtils` | (in `Props/TestUtils`) |
| implicit copies and assignments | `Assign` | `Assign` |
| queries whose allocations fail | `Failing` | `Failing` |
| building dictionaries whose allocations fail | `BuildFail` | `BuildFail` |
| distances whose allocations fail | `DistFail` | `DistFail` |
| `MurmurHash64A` with an `int` length | `LongHash` | `LongHash` |
| iterators whose allocations fail | `IterFail` | `IterFail` |
| saving and loading that fail | `SerialFail` | `SerialFail` |

* **C01–C03** `between` as a program over memo-table accesses (`get`/`set` of a `SymmetricPair`); by well-founded induction
  it computes a plain recursion, which is the least cost of an alignment and (C01, C02) the least length of a sequence of
  single operations.
* **C04, C08, C65** for transpositions the sequence of operations can be shorter than the best alignment. A sequence of `k`
  operations leaves a trace (which characters survive, in which order); an alignment of cost at most `3k/2` is built from
  the trace, and 3/2 is attained.
* **C05–C07, C09, C10** from the characterisation; C09 right-invariance by reversing alignments.
* **C11–C13** the program of `between` is run sequentially, and in an interleaving semantics with the shared mutex and one
  shared table; invariant "every table entry is the true distance of its key"; the access tree is finite whatever the
  table answers.
* **C14** with the byte-level hash.
* **C15–C26, C58, C59** invariant relating heap, stack of unchecked transitions, register of minimised nodes and set of
  floating nodes to the set of accepted terms. The tree unfolding of a node is the semantic object: `operator==` is
  equality of unfoldings, the hash is a function of the unfolding.
* **C27–C31, C60** the restored heap has the same unfolding; messages that the library did not write are classified.
* **C61, C62** encoder and decoder of the wire format; every proper beginning of a file is classified, and the
  cuts that are noticed are exactly those inside a field (`c62_noticed_cuts`).
* **C32–C44** one transition preserves the least cost to complete from a state (soundness and completeness per algorithm),
  plus the window invariant; a query is the breadth-first enumeration of the unfolding.
* **C39** the checked model never fails and agrees with the unchecked one.
* **C45–C51, C54** list-level theorems on states; the windows of all iterations of a query.
* **C52, C42** the pointer-level functions implement the list functions, for every program of list operations, and for every
  interleaving of queries on one transducer (`Session`), with nothing leaked.
* **C55–C57** the query with pointers to intersections is simulated by the query whose intersections contain their parents;
  invariant over programs that destroy dictionary, transducers and queries in any order; the limits are shown by running
  one step too far. **C68** composes this with the construction and the exactness of queries.
* **C69** the functions of `StateHeap` and `Lifetime` once more as trees of single accesses; run alone they are equal to the
  originals (`ThreadsRun`). A thread that succeeds alone with every allocator, and changes only what it has made
  (`ThreadsOwn`), does the same next to others: each thread has a private view of memory, the views agree on the shared
  objects and are disjoint elsewhere (`TInv`). A thread's list of operations is fixed; as its results do not depend on
  the others, that covers threads that decide by what they have read from their own queries.
* **C64** exactly the viable prefixes are visited; bounds for iterations and sizes of states.
* **C63, C66, C67, C70** the demo program as a whole, from `argv`, files and standard input to output, files and memory;
  C70 with the texts it prints.
* **C75** the message alone, as a list of edges, decides: `LastEdge` (no later edge takes its place), `Deletes`, `Walk`. The
  theorems give the outcome of reading, of `contains` and of deletion for every message, in terms of these relations.
* **C76** iterations are counted by the step bound: with one less the loop has not ended. Their number is the size of the tree
  unfolding, hence the number of strings that can be read from the root.
* **C77** the accesses to the table are counted along the run; every miss adds a pair of suffixes that was not there, because the
  inner calls only add shorter ones.
* **C78** the necessary number of errors comes from one string per case (the rest of the query, with a foreign character where
  an operation is half done), the sufficient one from an explicit alignment.
* **C79** an edge takes the same number of bytes in the text of a node whatever its label; numerals contain no comma.
* **C80** the graph is unrolled to the depth of the longest prefix that can be continued, with empty nodes for the missing
  ones; that is a dictionary, and the query takes the same steps on it. If a query did not get to a missing node, its
  answers would not depend on what stands there; they do, since a node that accepts everything gives one more.
* **C81** the breadth-first and depth-first collections keep a set of visited nodes, so they end on any finite graph; the
  invariant of C27–C29 does not need the absence of cycles.
* **C82** puts C75, C80 and C81 together; every number in a parsed message has 64 bits, which bounds what is written.
* **C83, C84** the functions are written once more with a count, and erasing the count gives the old ones. A node is hashed when
  it is looked up and, if new, when it is registered; what has been and what will be hashed of the tree unfolding is a
  potential that every step keeps. The codes of nodes with given labels are listed (one byte per child), and the pigeonhole
  principle gives the clashes.
* **C85** the bound on the recursion of the model functions is the number of nested calls, so it is enough to show for which
  bounds they end. The three `between` are written once more with the calls marked (`Depth`); removing the marks gives the
  old ones. For words a…a and b…b the first call in each is on words one character shorter in total.
* **C86** the strings the iterator has looked at are at any time the first ones, by length and then by `char`, that can be read
  from the root; this needs neither the absence of cycles nor of missing nodes. Only finitely many strings come before a given
  one, which bounds the number of steps.
* **C87** comparing and hashing go through the readable strings in lexicographic order; by induction on the bound of the
  recursion, each outcome comes with the string at which it was decided, or with one as long as the bound. That two outcomes
  exclude each other follows because the order is total.
* **C90** each iteration of the loop of `advance` is told where it fails, if at all; what it did not get to is recorded beside the run
  (`Thrown`). The nodes waiting in the queue are never below one another, so what one exception costs does not mix with the rest;
  the invariant of C42 is kept for memory with the left-overs added to what there was before.
* **C91** a dictionary in the making is a stack of unfinished nodes (`Site`), each with the finished tree below it; after an
  exception the stack may be shorter or longer than the common prefix says, which is what `Progress` keeps apart (`prev`, `last`,
  `path`). That a clash must end in undefined behaviour is shown with a smaller memory: the same run in the memory without the
  nodes freed too early is undefined wherever it touches one, and `clean_up` touches each node that is floating.
* **C92** threads as in C12, with a step that ends a call at any moment and gives its lock back; a cache that was right stays
  right because a call stores only values of pairs it has computed.
* **C93** the terms found so far and the terms below the nodes in the queue are at any time the terms of the dictionary without
  those the exceptions cost (`Walked.kept`); terms below different nodes of the queue do not mix, as in C90.
* **C94** a load that throws leaves what a load of a beginning of the message would have made (`fromProtoF_cases`), so that C75
  says what that is; a save leaves the old file or a beginning of the right bytes, so that C62 says what can be loaded.
* **C95** `add` allocates a node for each character beyond what the term shares with the previous one; in sorted terms these
  beginnings are new (what lies between two strings that begin alike begins so too). That nothing is deleted before `clean_up` is
  part of the invariant of the construction; the nodes left correspond to classes of beginnings by C20.
* **C96** intersections are made breadth first, hence in the order of the results, and `advance` stops right after it has made that
  of the candidate; the invariant of C33 is extended by the list of prefixes for which they were made.
* **C97** `MurmurHash64A` with an array of bytes and an `int` length; the distances run with a map that computes hash codes. Keys
  are pairs of suffixes of the words, so short words have short keys; equal keys have equal codes, so codes never change an answer.
* **C98** the loop of `contains` on the tree below a node, with the `int` as a limit on the depth; a query computes its largest
  window at the first edge of the root.
* **C99** the functions of `Dawg` once more as trees of single accesses to nodes, equal to the originals when run alone
  (`DictThreadsRun`). What a thread does is safe next to others if it is safe on the nodes that it owns, with the shared ones
  to read (`Safe`, a weakest precondition with a frame rule). A program that has run to its end without allocating is safe
  as it is; one whose new nodes all live at its end is safe for all addresses that it may be given, as these are then the
  addresses of some allocator (`Safe.of_fresh`). `sorted_dawg` is one of these followed by one of those. `FuelBound` has one
  bound for all runs.
* **C100** a grammar of bytes as inductive relations (`Spec/WireGrammar.lean`); the decoder is sound and complete for it
  (`decodeMsg_iff`), part by part: numbers, tags, payloads, groups, fields, packed numbers, edges.
* **C101** the fields of a written message, applied to another one, give `joined`; without common nodes this is well formed and
  what can be reached from the second root is the second message alone. Written twice, each edge takes its own place and
  deletes its target, so C75 applies.
* **C102** simulation: the resumed construction runs as one on an empty root at the same address would (`liftH`, `liftD` put the
  old edges and the old size back), as long as no new edge of the root has the label of an old one.
* **C103** induction over the steps with the invariant `Settled` (memory is what it was at first and the nodes that can be reached
  from the root, their tree is trim and sorted, the language is the list of terms), which finished, resumed and restored
  dictionaries have. It does not mention the allocator: before each step the nodes are renumbered (`reindex`) as if the
  allocator of that step had handed them out.
* **C104** the invariant `Bfs` of C86 with one clause more: the iterator owns as many prefixes as strings were looked at or are in
  the queue.  `ReadUpTo` and `OneBeyond` (Spec/IterMem) say which strings these are without mention of the queue.
* **C105** the invariant of C15: the root has no edge yet to what is on the stack of unchecked transitions, and the stack spells the
  last term. `Shows` says what contains, iterators and queries can see.
* **C106** all nodes below the root are in the register, which only grows, and registered nodes never change (`Grows`, `Stays`); a
  query or iterator that has read the root only reads such nodes (`Deep`, `DeepI`), so its run in the memory it started with is its run.
* **C107** `Spec/AnyOrder.lean` says what is stored and when an edge is overwritten, in words only.  `Site` (from C91) holds without
  any order of the labels; as long as no edge is overwritten `Full` (the register has all finished nodes, no two alike) is kept as well
  and gives minimality.  An overwritten edge leaves the memory without a floating node (`Heap.without`), or is still to come
  (`Clash`); one of the two stays so until `clean_up`, which then is undefined.
* **C108** induction over the repetitions: what C102 and C105 prove of one of them starts from any dictionary that nobody is adding to
  (`Settled`) and ends in one; the order of the terms gives that the letters of the next one are new.
* **C109** `Proofs/Over.lean` follows the node behind each edge of the old root that is overwritten: `add_edge` deletes it
  at once (`Freed`), so it is deleted once for each such edge, and the rest of the old graph stays.  The program is undefined if it is
  deleted twice or still reachable when `clean_up` reads all nodes (`OverEnd`).  `Spec/Second.lean` says the same of
  words only; the two agree because the dictionary is minimal (`Plain.shared_iff`, `Plain.astray_iff`).
* **C110** `iter_pending`: after `k` increments the prefixes that are pending point to nodes of the dictionary, and there are none
  exactly if at most `k + 1` different terms were given (every node leads to a term).  So the next `++` reads a deleted node, or none.
* **C111** the loop invariant `Away`: the intersection of the transducer is neither pending nor the one whose edges are looked at.
  `QueryAt.away_iff` says in terms of the candidate shown when it holds; while it does, the loop never follows the dangling pointer.
  Without the dictionary too, the loop gets to a deleted node before it requests memory, so that the allocator does not matter.
* **C112** the invariant `Layered`: every edge of the root belongs to the layer of one construction, within a layer no two nodes
  mean the same, and layers share no nodes.  `settled_second` (C109) says how a construction changes the nodes (`Laid`), so it adds one
  layer.
* **C113** the simulation of C52 with a predecessor that may be wrong (`LateSim`); `Round` is a set of positions that the list never
  leaves.
* **C114** the outer iterator's `_next` is the first address of what the inner cursor works on (`InnerSim`).
* **C115** two owners of one list: after one is destroyed, the first shared position is deleted (`two_heads`, `shared_tail`,
  `deletePosLoop_dead`).
* **C116** the answers are determined by the terms and the cost (`yields_facts`, `yields_of_facts`); the relations are those of alignments.
* **C117** inductions over alignments; for the bound by thirds, splits and merges are taken in turn (`alignLe_thirds`).
* **C118** `printedIn_foldl`: any pieces inserted one after another; each `operator<<` is then a list of pieces.
* **C119** `Prints f t`: `f` prints `t` on any stream. The program with a stream is then the program of C70 with its text printed.
* **C120** `insertsT`: pieces one after another until an exception, compared with `printedIn_foldl` of C118.
* **C71–C74** the body of each property test as a program: `RC_PRE` and `RC_ASSERT` are outcomes (`discarded`, `failed`), the
  generated values are parameters. A test that has the outcome `ok` for all parameters can not fail.

## 3. Findings (claims of the project that are false of the code)

* The transposition distance is neither the least number of operations nor a metric (C04, C08), so a query can miss a term
  that is `n` operations away (C65).
* `size()` counts repeated terms and the iterator then yields the last term again (C17, C18).
* `add` on a finished dictionary dereferences null (C26); between `finish` and `clean_up` it adds wrong terms (C59),
  unless the first of them begins with another letter than the last term before (`c59_add_after_finish_partial`).
* `from_protobuf` accepts messages that make a broken object: undefined behaviour, leaks, endless loops (C31, C60, C75); an empty
  or cut file is read as a dictionary with a null root (C62), so the demo crashes on it (C67).
* `unsubsume` hardly ever removes anything because states are in the wrong order for it (C48); `subsumes` is unsound for
  two algorithms, which is harmless only because of that (C51); C78 lists the pairs and proves a repair.
* The classes that own memory can be copied, and destroying original and copy deletes twice (C56);
  assignment and `std::swap` do the same or leak, depending on how far the queries are (C89). A query must not be advanced
  after its transducer or the dictionary is gone (C55, not documented). Comparison of queries ignores the right operand,
  comparison of dictionary iterators ignores the dictionary (C57).
* Two of the project's tests assert something false for some inputs, which random values do not hit: the triangle inequality with
  transpositions and that different pairs never have the same hash code (C74). The tests of `DawgNode` leak the leaves (C71).
* A range-for looks for one term more than it yields, so on a graph from a file it can hang or be undefined after all terms have
  been yielded (C86).
* Comparing dictionaries from files is not symmetric: one way round it can say "unequal", the other way round it is undefined;
  and a dictionary with a null edge is unequal to itself (C87).
* Deletion visits a node once per path, so a file of a few kilobytes can hold a correct dictionary that is practically never
  deleted (C76).
* The hash code of a node uses the lowest byte only of the hash code of each child, and hashing and comparing go through the
  whole tree below a node (C83): building takes time that grows at least with the square of the length of a term (C84).
* A query that has run out of memory once compares equal to its end; calling `operator++` again does not bring back what it was
  about to look at, and an exception of its constructor leaks all its states (C90). If memory runs out in the stream that makes
  the string of a candidate, nothing is thrown and the candidate is reported with a part of its term.
* An iterator of a dictionary that has run out of memory shows the last term again for each term it has lost (C93).
* If an allocation fails in `add` after a part of the word was stored, adding the same word again succeeds, but `finish` and
  `clean_up` free a node twice or read a freed one. Other exceptions silently lose words, which `size()` still counts, and
  `sorted_dawg` leaks the whole dictionary when it throws (C91).
* `serialize_protobuf` to a path empties the file before it does anything else, so that a failure destroys the old dictionary
  and the next run of the demo crashes on what is left; and it returns true although the end of the file may be missing,
  because the result of `close` is not looked at. `deserialize_protobuf` leaks all nodes made so far when it throws (C94).
* Building a dictionary keeps the whole tree of the terms in memory: nodes replaced by equal ones stay until `clean_up`. For the
  strings of n letters out of two these are 2^(n+1)-1 nodes for a result of n+1 (C95).
* A query keeps every intersection it ever made until it is destroyed, which can be exponentially many in the size of the
  dictionary (C96).
* `between` is undefined behaviour for words of 2^31 bytes or more, because the length is converted to `int` for the hash
  function (C97).
* `contains` and queries are undefined behaviour for some words of 2^31 characters or more, because loop counters are `int`s
  (C98).
* A dictionary must not be searched while another thread adds to it or destroys it (C99; not documented).
* Streams hold one dictionary: of several written to one stream only the last is read, with the nodes of the others leaked and
  possibly a wrong size; the same dictionary written twice cannot be read, deleted or searched without undefined behaviour
  (C101; not documented).
* A finished dictionary can be resumed with `init`, but its first term must begin with a new letter: otherwise `add` returns true
  and adds a wrong term, or deletes a node in use (C102; not documented).
* A dictionary that was read back can be resumed with `init` only with terms that begin with new letters; otherwise terms get
  lost, nodes leak or are used after they were deleted (C103; not documented).
* An iterator over a dictionary holds memory in the number of beginnings of terms, not of nodes; for small files this may be
  more than any machine has, at `begin()` (C104).
* Before `finish` a dictionary counts terms in `size` that it does not contain, and iterators yield strings that are no terms
  (C105; not documented).
* A query reads the root when it is begun, except that it does so at its first increment if the empty term is its first answer: what
  is added in between is found or not accordingly (C106; not documented).
* A term added twice, with `finish` in between, adds the empty term; a longer one with the same beginning may free a node that is
  still in use (C107).
* A second construction on a dictionary can lose words without notice: `ba`, then in a second construction `bb`, leaves only `b` with
  `size()` 2, and the old leaf is never freed.  With `a`, `b` and then `bb` the leaf behind `a` is freed, and `clean_up` reads it (C109).
* An iterator that is incremented after its dictionary was deleted reads a deleted node unless it was at the last term; where the
  addresses are used again it may show a string that no dictionary ever had (C110).
* Advancing a query past its last candidate after its transducer was destroyed usually works; it is undefined behaviour if the candidate
  is the empty term, or has one letter and some term begins with a later one (C111).
* Whether a further construction on a dictionary is undefined behaviour depends on how the words were divided into constructions:
  "a", then "b", then "bb" in three constructions is defined, "a" and "b" in one and then "bb" is not (C112).
* `StateIterator::insert` at the end puts the position at the front; a removal one step later is undefined behaviour or makes the list
  circular, because the iterator's predecessor is then wrong (C113).  The library itself does not call `insert`.
* `remove` of a `StateIterator` that was constructed at a position other than the first deletes the first position of the state if it
  is called before the first `++` (C113).  `unsubsume` calls `++` first.
* `State`, `Position` and `Intersection` have destructors that delete what they point to and the compiler's copy operations (C115).  The
  library does not copy them.
* `std::setw` before a prefix, intersection, node, dictionary or pair pads the first piece of the text only; before an empty prefix it
  applies to what is printed next (C118).
* The demo program never looks at the state of `std::cout`: it exits with 0 although its answers were not printed (C119).
* The tests' generator of random names never draws its last character, `z` (C88).
* The demo repeats an unterminated last line for ever (C67) and takes `--max-distance -1` for 2^64-1 (C66).

## 4. Trusted base

* Lean 4.33.0's kernel. Every property theorem depends on at most the axioms `propext`, `Classical.choice` and `Quot.sound`
  (`#print axioms`; `tools/axioms.txt` has the list per theorem). No `sorry`, no `native_decide`, no axiom of our own. The
  concrete runs in `example`s are evaluated by the kernel (`decide`, `decide +kernel`); no theorem rests on them but the
  refutations, which need one witness.
* The reading of the C++ code, and of the C++ standard for what it uses: containers, strings, `std::sort`, `std::getline`,
  `operator>>`, `operator<<` (a stream catches what its buffer throws and is bad from then on), `std::shared_mutex` (sequentially consistent accesses under the lock). Threads (C69, C99): accesses interleave,
  which the C++ memory model warrants for programs without races, and the absence of races is proved in the interleaving
  semantics; `new` and `delete` are thread-safe.
* The protobuf library: what it writes and accepts is assumed as documented for proto3, with the limits of the C++ library
  for nesting and lengths (list in `Verif/Model/Wire.lean`).
* `new` never fails (but in C90 to C94, where it may fail anywhere in a query, while a dictionary is built, in a distance, in
  an iterator, or while a dictionary is saved or loaded); recursion never exhausts the C++ stack. C85 says how many calls are nested: the length of the longest term
  for hashing, comparing and serializing dictionaries, the lengths of both words together for distances.
* 64-bit little-endian platform; hash keys shorter than 2^31 bytes (`int` length of MurmurHash64A; C97 says what happens to longer ones). Dictionary terms
  have fewer than 2^62 characters (no string in memory is longer).  Queries have fewer than 2^31, or fewer than 2^62 if the maximum
  distance is below 2^30 (`QueryFits`): otherwise the loop counter of `characteristic_vector`, an `int`, can overflow (C98).
* File system: distinct path strings are distinct files, existing paths are readable regular files, no exception from
  `std::filesystem`, no concurrent change (`Demo`). In C94 the disk may refuse bytes; it then takes none of the later ones,
  and `SerializeToOstream` reports every failure but that of `close`.

Not modelled: the buffer of `std::cout` and signals, `docs`, build files; of the tests, RapidCheck's generators and
the reading of YAML. `LazyIterator::begin`/`end` and `Dawg::begin`/`end` return prvalues: no copy.

## 5. Mutation tests

`seeded/LOG.jsonl` has one line per edit of the model that was tried in a scratch copy: the definition, the edit, the claims
it should break, the theorems that no longer check, the theorems tightened as a consequence. A theorem counts as failed when
its proof, or a lemma it rests on, is rejected after the edit. Edits marked as controls preserve the behaviour that the
properties speak of; proofs may fail there too because they follow the definitions.
