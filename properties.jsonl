{"id": "C01", "title": "StandardDistance is the minimum number of insertions, deletions and substitutions", "statement": "StandardDistance::between(v,w) returns the least k such that v can be turned into w by k single-character insertions, deletions or substitutions applied one after another.", "quantifier": "all byte strings v and w, any earlier use of the object", "why_tests_cant": "The string domain is infinite; random tests only sample short strings and never compare with an independent definition of optimality.", "anchors": ["src/liblevenshtein/distance/standard_distance.cpp:StandardDistance::between", "src/liblevenshtein/distance/distance.h:Distance"]}
{"id": "C02", "title": "MergeAndSplitDistance is the minimum number of insertions, deletions, substitutions, merges and splits", "statement": "MergeAndSplitDistance::between(v,w) returns the least k such that v can be turned into w by k operations, each an insertion, deletion, substitution, merge of two adjacent characters into one, or split of one character into two.", "quantifier": "all byte strings v and w, any earlier use of the object", "why_tests_cant": "The string domain is infinite; random tests only sample short strings and never compare with an independent definition of optimality.", "anchors": ["src/liblevenshtein/distance/merge_and_split_distance.cpp:MergeAndSplitDistance::between"]}
{"id": "C03", "title": "TranspositionDistance is the optimal-string-alignment distance", "statement": "TranspositionDistance::between(v,w) returns the least cost of a left-to-right alignment of v with w built from free matches and unit-cost insertions, deletions, substitutions and swaps of two adjacent characters, where every character takes part in one operation only.", "quantifier": "all byte strings v and w, any earlier use of the object", "why_tests_cant": "The string domain is infinite; random tests only sample short strings and never compare with an independent definition of optimality.", "anchors": ["src/liblevenshtein/distance/transposition_distance.cpp:TranspositionDistance::between"]}
{"id": "C04", "title": "TranspositionDistance against the documented 'minimum number of elementary operations'", "statement": "distance.h documents the result as the minimum number of elementary operations (insert, delete, substitute, transpose) needed to turn one term into the other. FALSE of the code: d(\"CA\",\"ABC\")=3 although two operations suffice. What holds: the result is never below the minimum number of operations and never above 3/2 of it, and 3/2 cannot be improved.", "quantifier": "all byte strings v and w", "why_tests_cant": "The test-suite never compares against an operation-sequence search; the failing inputs are rare in random data.", "anchors": ["src/liblevenshtein/distance/distance.h:Distance", "src/liblevenshtein/distance/transposition_distance.cpp"]}
{"id": "C05", "title": "Identity of indiscernibles", "statement": "For each of the three distances, between(v,w)==0 exactly when v==w.", "quantifier": "all byte strings v, w; all three algorithms", "why_tests_cant": "Needs all pairs of strings.", "anchors": ["src/liblevenshtein/distance/distance.h", "src/liblevenshtein/distance/standard_distance.cpp", "src/liblevenshtein/distance/transposition_distance.cpp", "src/liblevenshtein/distance/merge_and_split_distance.cpp"]}
{"id": "C06", "title": "Symmetry", "statement": "For each of the three distances, between(v,w)==between(w,v), whichever of the two was asked first and whether or not the answer came from the memo table.", "quantifier": "all byte strings v, w; all call histories; all three algorithms", "why_tests_cant": "Sharing one memo entry for both orders hides asymmetry in a test: the second call just reads the first call's answer.", "anchors": ["src/liblevenshtein/distance/memoized_distance.cpp", "src/liblevenshtein/distance/symmetric_pair.cpp"]}
{"id": "C07", "title": "Triangle inequality of StandardDistance and MergeAndSplitDistance", "statement": "d(x,z) <= d(x,y)+d(y,z) for the standard and for the merge-and-split distance.", "quantifier": "all byte strings x, y, z", "why_tests_cant": "Triples of strings; violations, if any, are vanishingly rare among random triples.", "anchors": ["src/liblevenshtein/distance/distance.h", "src/liblevenshtein/distance/standard_distance.cpp", "src/liblevenshtein/distance/merge_and_split_distance.cpp"]}
{"id": "C08", "title": "Triangle inequality of TranspositionDistance", "statement": "distance.h and test_transposition_distance.cpp claim d(x,z) <= d(x,y)+d(y,z) for TranspositionDistance. FALSE of the code (x=\"CA\", y=\"AC\", z=\"ABC\": 3 > 1+1). What holds: d(x,z) <= 3/2*(d(x,y)+d(y,z)), and 3/2 cannot be improved.", "quantifier": "all byte strings x, y, z", "why_tests_cant": "The project's own randomized test passes because random triples almost never hit a violation.", "anchors": ["src/liblevenshtein/distance/distance.h", "src/liblevenshtein/distance/transposition_distance.cpp", "test/liblevenshtein/distance/test_transposition_distance.cpp"]}
{"id": "C09", "title": "Left and right invariance", "statement": "For each distance d(z+x,z+y)==d(x,y) and d(x+z,y+z)==d(x,y).", "quantifier": "all byte strings x, y, z; all three algorithms", "why_tests_cant": "Needs all triples of strings.", "anchors": ["test/liblevenshtein/distance", "src/liblevenshtein/distance/standard_distance.cpp"]}
{"id": "C10", "title": "Bounds and comparison of the three distances", "statement": "max(|v|,|w|) bounds each distance from above; the difference of lengths bounds standard and transposition distance from below; the transposition and merge-and-split distances never exceed the standard distance, and the standard distance is at most twice each of them.", "quantifier": "all byte strings v, w", "why_tests_cant": "Needs all pairs of strings.", "anchors": ["src/liblevenshtein/distance/"]}
{"id": "C11", "title": "Answers do not depend on the call history", "statement": "After any finite sequence of earlier calls on the same Distance object, between(v,w) returns the same value a fresh object returns.", "quantifier": "all finite call sequences, all byte strings, all three algorithms", "why_tests_cant": "The memo table makes the result history-dependent in principle; histories are unbounded.", "anchors": ["src/liblevenshtein/distance/memoized_distance.cpp:get", "src/liblevenshtein/distance/memoized_distance.cpp:set"]}
{"id": "C12", "title": "Concurrent calls on one Distance object return the sequential answers", "statement": "If any number of threads call between on one shared object, then under every interleaving of their table reads and writes each finished call has returned the same value as a call on a fresh object.", "quantifier": "all thread counts, all argument pairs, all schedules of the atomic get/set steps", "why_tests_cant": "Schedules cannot be enumerated by a test.", "anchors": ["src/liblevenshtein/distance/memoized_distance.h:mutex", "src/liblevenshtein/distance/memoized_distance.cpp"]}
{"id": "C13", "title": "Distance calls terminate", "statement": "Every call of between terminates, after a number of table accesses that no other thread can extend.", "quantifier": "all byte strings, all schedules, all contents of the table", "why_tests_cant": "Termination is not observable by a finite test.", "anchors": ["src/liblevenshtein/distance/standard_distance.cpp", "src/liblevenshtein/distance/transposition_distance.cpp", "src/liblevenshtein/distance/merge_and_split_distance.cpp"]}
{"id": "C14", "title": "SymmetricPair is an unordered pair", "statement": "SymmetricPair(u,v)==SymmetricPair(x,y) exactly when {u,v}={x,y} as unordered pairs, and equal pairs have equal hash codes.", "quantifier": "all byte strings u, v, x, y", "why_tests_cant": "Needs all quadruples of strings.", "anchors": ["src/liblevenshtein/distance/symmetric_pair.cpp"]}
{"id": "C15", "title": "A dictionary built from sorted terms contains exactly those terms", "statement": "If the terms are in non-descending lexicographic order, sorted_dawg returns a non-null dictionary and contains(t) is true exactly for the given terms.", "quantifier": "all sorted term sequences (any length, any bytes, repetitions allowed) and all probe strings t", "why_tests_cant": "Construction merges suffixes through a hash map; a wrong merge changes the language only for particular term sets.", "anchors": ["src/liblevenshtein/collection/sorted_dawg.cpp:sorted_dawg", "src/liblevenshtein/collection/sorted_dawg.cpp:SortedDawg::minimize", "src/liblevenshtein/collection/dawg.cpp:Dawg::contains"]}
{"id": "C16", "title": "Unsorted input is rejected, and only unsorted input", "statement": "sorted_dawg returns nullptr exactly when some term is lexicographically smaller (as unsigned bytes) than its predecessor.", "quantifier": "all term sequences", "why_tests_cant": "Needs all sequences.", "anchors": ["src/liblevenshtein/collection/sorted_dawg.cpp:SortedDawg::add", "src/liblevenshtein/collection/sorted_dawg.cpp:sorted_dawg"]}
{"id": "C17", "title": "size() is the number of terms", "statement": "For strictly ascending input size() equals the number of dictionary terms. FALSE when a term is repeated: add counts the repetition, so size() exceeds the number of terms contained.", "quantifier": "all sorted term sequences", "why_tests_cant": "Test inputs come from std::set, which never contains repetitions.", "anchors": ["src/liblevenshtein/collection/sorted_dawg.cpp:SortedDawg::add", "src/liblevenshtein/collection/dawg.h:Dawg::size"]}
{"id": "C18", "title": "Iterating a dictionary yields every term exactly once", "statement": "For strictly ascending input a range-for over the dictionary yields each term exactly once and stops. With repeated terms the iterator yields the last term again once per repetition.", "quantifier": "all sorted term sequences", "why_tests_cant": "Needs all dictionaries.", "anchors": ["src/liblevenshtein/collection/dawg_iterator.cpp:DawgIterator::advance", "src/liblevenshtein/collection/dawg.cpp:Dawg::begin", "src/liblevenshtein/collection/dawg.cpp:Dawg::end"]}
{"id": "C19", "title": "Iteration order", "statement": "Terms are yielded by non-decreasing length, and among equal lengths in the lexicographic order of the platform's char type.", "quantifier": "all dictionaries, both signednesses of char", "why_tests_cant": "Needs all dictionaries.", "anchors": ["src/liblevenshtein/collection/dawg_iterator.cpp", "src/liblevenshtein/collection/dawg_node.cpp:DawgNode::for_each_edge"]}
{"id": "C20", "title": "The constructed graph is minimal", "statement": "No two different nodes reachable from the root of a constructed dictionary accept the same set of suffixes.", "quantifier": "all sorted term sequences", "why_tests_cant": "Minimality failures do not change any query result.", "anchors": ["src/liblevenshtein/collection/sorted_dawg.cpp:SortedDawg::minimize", "src/liblevenshtein/collection/sorted_dawg.cpp:SortedDawg::minimized_node"]}
{"id": "C21", "title": "Dictionary equality is equality of term sets", "statement": "Two dictionaries built by sorted_dawg compare equal exactly when they contain the same terms and have the same size(); in particular the way the graph was built does not matter.", "quantifier": "all pairs of sorted term sequences", "why_tests_cant": "Needs all pairs of dictionaries.", "anchors": ["src/liblevenshtein/collection/dawg.cpp:Dawg::operator==", "src/liblevenshtein/collection/dawg_node.cpp:DawgNode::operator=="]}
{"id": "C22", "title": "Equal dictionaries and nodes have equal hash codes", "statement": "If two nodes (or dictionaries) compare equal then std::hash gives the same value, wherever they are allocated.", "quantifier": "all acyclic node graphs", "why_tests_cant": "A hash/equality mismatch would only surface as a missed merge in the unordered_map.", "anchors": ["src/liblevenshtein/collection/dawg_node.cpp:std::hash<DawgNode>", "src/liblevenshtein/collection/dawg.cpp:std::hash<Dawg>"]}
{"id": "C23", "title": "Building and destroying a dictionary neither leaks nor double-frees nodes", "statement": "Whether sorted_dawg succeeds or rejects its input, no node is accessed after deletion or deleted twice; on rejection every allocated node has been deleted; on success exactly the nodes reachable from the root are alive, and deleting the dictionary deletes each of them exactly once.", "quantifier": "all term sequences", "why_tests_cant": "Leaks and dangling pointers depend on where in the sequence construction stops.", "anchors": ["src/liblevenshtein/collection/sorted_dawg.cpp:SortedDawg::clean_up", "src/liblevenshtein/collection/dawg.cpp:Dawg::~Dawg", "src/liblevenshtein/collection/dawg_node.cpp:DawgNode::add_edge"]}
{"id": "C24", "title": "A rejected add changes nothing", "statement": "During construction add(t) returns false exactly when t is smaller than the last accepted term, and then the object is unchanged, so construction can go on with larger terms.", "quantifier": "all histories of add calls", "why_tests_cant": "Needs all histories.", "anchors": ["src/liblevenshtein/collection/sorted_dawg.cpp:SortedDawg::add"]}
{"id": "C25", "title": "remove never removes", "statement": "remove(t) returns false and changes nothing.", "quantifier": "all dictionaries and terms", "why_tests_cant": "Universal claim over all states.", "anchors": ["src/liblevenshtein/collection/sorted_dawg.cpp:SortedDawg::remove"]}
{"id": "C26", "title": "Calling add on a finished dictionary", "statement": "Dawg::add is public; calling it on a dictionary returned by sorted_dawg or deserialize_protobuf should be safe. FALSE: every add of a non-empty term not smaller than the last one dereferences a null pointer. What holds: smaller terms are rejected without effect, and the empty term is accepted exactly when the last term is empty.", "quantifier": "all finished dictionaries and terms", "why_tests_cant": "Undefined behaviour is not observable by a portable test.", "anchors": ["src/liblevenshtein/collection/sorted_dawg.cpp:SortedDawg::add", "src/liblevenshtein/collection/sorted_dawg.cpp:SortedDawg::clean_up"]}
{"id": "C27", "title": "Serialization round trip", "statement": "from_protobuf(to_protobuf(d)) is a dictionary that compares equal to d, has the same size and contains the same terms.", "quantifier": "all dictionaries with an acyclic node graph at any addresses, in particular all built ones", "why_tests_cant": "Depends on the order of the node addresses chosen by the allocator.", "anchors": ["src/liblevenshtein/serialization/serializer.cpp:to_protobuf", "src/liblevenshtein/serialization/serializer.cpp:from_protobuf"]}
{"id": "C28", "title": "A restored dictionary answers every query like the original", "statement": "Any query of any algorithm and maximum distance on the restored dictionary yields the same candidates in the same order as on the original; iteration is the same too.", "quantifier": "all dictionaries, queries, distances, algorithms", "why_tests_cant": "Needs all dictionaries and queries.", "anchors": ["src/liblevenshtein/serialization/serializer.cpp", "src/liblevenshtein/transducer/lazy_query.cpp"]}
{"id": "C29", "title": "The serialized message lists every node and edge once", "statement": "to_protobuf lists each node reachable from the root exactly once in ascending id order, the final ones among them, and each edge between them exactly once; nothing else.", "quantifier": "all acyclic dictionaries", "why_tests_cant": "Needs all graphs (shared suffixes are reached along many paths).", "anchors": ["src/liblevenshtein/serialization/serializer.cpp:collect_nodes", "src/liblevenshtein/serialization/serializer.cpp:collect_edges"]}
{"id": "C30", "title": "All byte labels survive serialization", "statement": "A label stored as uint32 and cast back to char is the original char for all 256 values, for signed and unsigned char.", "quantifier": "all 256 byte values, both signednesses", "why_tests_cant": "Finite, but no test covers bytes above 0x7f on both kinds of platform.", "anchors": ["src/liblevenshtein/serialization/serializer.cpp:to_protobuf", "src/liblevenshtein/serialization/serializer.cpp:from_protobuf"]}
{"id": "C31", "title": "Deserializing a foreign message", "statement": "deserialize_protobuf should return nullptr or a usable dictionary. FALSE: the empty message yields a non-null dictionary with a null root whose destruction is undefined behaviour, and a message with an edge from an unlisted node dereferences null.", "quantifier": "all messages", "why_tests_cant": "Malformed inputs are unbounded.", "anchors": ["src/liblevenshtein/serialization/serializer.cpp:from_protobuf"]}
{"id": "C32", "title": "STANDARD transducer returns exactly the terms within the distance, with their distances", "statement": "Iterating Transducer<STANDARD,Candidate>(root)(q,n) yields (t,d) exactly for the dictionary terms t whose standard distance d to q is at most n.", "quantifier": "all dictionaries, all queries q, all n", "why_tests_cant": "Needs all dictionaries, queries and distances; the automaton prunes states in many special cases near the end of the word and of the window.", "anchors": ["src/liblevenshtein/transducer/transducer.cpp", "src/liblevenshtein/transducer/lazy_query.cpp", "src/liblevenshtein/transducer/position_transition.cpp"]}
{"id": "C33", "title": "TRANSPOSITION transducer returns exactly the terms within the distance, with their distances", "statement": "Iterating Transducer<TRANSPOSITION,Candidate>(root)(q,n) yields (t,d) exactly for the dictionary terms t whose transposition distance d to q is at most n.", "quantifier": "all dictionaries, all queries q, all n", "why_tests_cant": "Needs all dictionaries, queries and distances; the automaton prunes states in many special cases near the end of the word and of the window.", "anchors": ["src/liblevenshtein/transducer/transducer.cpp", "src/liblevenshtein/transducer/lazy_query.cpp", "src/liblevenshtein/transducer/position_transition.cpp"]}
{"id": "C34", "title": "MERGE_AND_SPLIT transducer returns exactly the terms within the distance, with their distances", "statement": "Iterating Transducer<MERGE_AND_SPLIT,Candidate>(root)(q,n) yields (t,d) exactly for the dictionary terms t whose merge-and-split distance d to q is at most n.", "quantifier": "all dictionaries, all queries q, all n", "why_tests_cant": "Needs all dictionaries, queries and distances; the automaton prunes states in many special cases near the end of the word and of the window.", "anchors": ["src/liblevenshtein/transducer/transducer.cpp", "src/liblevenshtein/transducer/lazy_query.cpp", "src/liblevenshtein/transducer/position_transition.cpp"]}
{"id": "C35", "title": "No candidate is yielded twice", "statement": "One query yields each term at most once, although the dictionary graph shares nodes.", "quantifier": "all dictionaries, queries, distances, algorithms", "why_tests_cant": "Needs all dictionaries, queries and distances; the automaton prunes states in many special cases near the end of the word and of the window.", "anchors": ["src/liblevenshtein/transducer/lazy_query.cpp:LazyQuery::advance"]}
{"id": "C36", "title": "std::string results are the terms of the Candidate results", "statement": "Transducer<A,std::string> yields the same terms in the same order as Transducer<A,Candidate>.", "quantifier": "all dictionaries, queries, distances, algorithms", "why_tests_cant": "Needs all dictionaries, queries and distances; the automaton prunes states in many special cases near the end of the word and of the window.", "anchors": ["src/liblevenshtein/transducer/lazy_query.cpp:update_candidate"]}
{"id": "C37", "title": "Candidate order", "statement": "Candidates are yielded by non-decreasing length and, within a length, in the lexicographic order of the platform's char type: a query result is a subsequence of the dictionary's own iteration order.", "quantifier": "all dictionaries, queries, distances, algorithms", "why_tests_cant": "Needs all dictionaries, queries and distances; the automaton prunes states in many special cases near the end of the word and of the window.", "anchors": ["src/liblevenshtein/transducer/lazy_query.cpp:LazyQuery::advance"]}
{"id": "C38", "title": "Queries terminate and stay finished", "statement": "Iterating a query over an acyclic dictionary reaches the end after finitely many steps, and incrementing a finished query leaves it finished.", "quantifier": "all dictionaries, queries, distances, algorithms", "why_tests_cant": "Termination is not observable by a finite test.", "anchors": ["src/liblevenshtein/transducer/lazy_query.cpp:LazyQuery::advance"]}
{"id": "C39", "title": "No size_t wraparound for any max_distance", "statement": "For every max_distance up to SIZE_MAX (with dictionary terms of fewer than 2^62 characters, and a query of fewer than 2^31, or of fewer than 2^62 if the maximum distance is below 2^30) no intermediate size_t computation of a query wraps around and none reads outside the characteristic vector; the result is the one computed with unbounded integers.", "quantifier": "all n < 2^64, all terms below 2^62 bytes, all queries of fewer than 2^62 characters (fewer than 2^31, unless the maximum distance is below 2^30)", "why_tests_cant": "Boundary values of a 64-bit domain combined with all dictionaries.", "anchors": ["src/liblevenshtein/transducer/position_transition.cpp", "src/liblevenshtein/transducer/lazy_query.cpp", "src/liblevenshtein/transducer/distance.cpp"]}
{"id": "C40", "title": "Results grow with the maximum distance", "statement": "If n <= m then the candidates of (q,n) are exactly the candidates of (q,m) whose distance is at most n, in the same order.", "quantifier": "all dictionaries, queries, pairs n <= m, algorithms", "why_tests_cant": "Needs all dictionaries, queries and distances; the automaton prunes states in many special cases near the end of the word and of the window.", "anchors": ["src/liblevenshtein/transducer/lazy_query.cpp"]}
{"id": "C41", "title": "Distance zero is exact lookup", "statement": "The query (q,0) yields exactly (q,0) if the dictionary contains q and nothing otherwise.", "quantifier": "all dictionaries, queries, algorithms", "why_tests_cant": "Needs all dictionaries, queries and distances; the automaton prunes states in many special cases near the end of the word and of the window.", "anchors": ["src/liblevenshtein/transducer/lazy_query.cpp", "src/liblevenshtein/collection/dawg.cpp:contains"]}
{"id": "C42", "title": "Queries do not influence each other", "statement": "Any sequence or interleaving of queries and iterations on one transducer gives each query the candidates it would yield alone: a query never modifies the dictionary, the shared initial state or a state of another query.", "quantifier": "all interleavings of increments of any number of queries on one transducer", "why_tests_cant": "Interleavings are unbounded.", "anchors": ["src/liblevenshtein/transducer/transducer.cpp", "src/liblevenshtein/transducer/state_transition.cpp", "src/liblevenshtein/transducer/lazy_query.cpp"]}
{"id": "C43", "title": "The empty term", "statement": "The empty term is yielded exactly when it is in the dictionary and |q| <= n, first, and with distance |q|.", "quantifier": "all dictionaries, queries, distances, algorithms", "why_tests_cant": "Needs all dictionaries, queries and distances; the automaton prunes states in many special cases near the end of the word and of the window.", "anchors": ["src/liblevenshtein/transducer/lazy_query.cpp:LazyQuery::LazyQuery"]}
{"id": "C44", "title": "Transducer and Distance agree", "statement": "For every candidate the distance reported by the transducer equals what the corresponding Distance object's between returns for the term and the query.", "quantifier": "all dictionaries, queries, distances, algorithms", "why_tests_cant": "Needs all dictionaries, queries and distances; the automaton prunes states in many special cases near the end of the word and of the window.", "anchors": ["src/liblevenshtein/transducer/distance.cpp", "src/liblevenshtein/distance/"]}
{"id": "C45", "title": "State transitions produce well-formed states", "statement": "A state returned by a transition is non-empty, strictly ascending for the algorithm's comparator, free of duplicates, and every position lies in the query and within the error budget.", "quantifier": "all reachable states, all characters", "why_tests_cant": "Needs all reachable states.", "anchors": ["src/liblevenshtein/transducer/state_transition.cpp", "src/liblevenshtein/transducer/merge.cpp", "src/liblevenshtein/transducer/state.cpp"]}
{"id": "C46", "title": "State::sort is a stable sort", "statement": "sort leaves the state with the same positions, in ascending order, equal positions in their original order, for every comparator that is a total preorder.", "quantifier": "all states, all total-preorder comparators", "why_tests_cant": "Needs all lists.", "anchors": ["src/liblevenshtein/transducer/state.cpp:merge_sort", "src/liblevenshtein/transducer/state.cpp:merge", "src/liblevenshtein/transducer/state.cpp:find_middle"]}
{"id": "C47", "title": "merge inserts each new position once", "statement": "Merging positions into a state adds exactly the positions not present yet, keeps the state strictly descending by (errors, index, special flag), and frees the duplicates.", "quantifier": "all ordered states, all position lists", "why_tests_cant": "Needs all lists.", "anchors": ["src/liblevenshtein/transducer/merge.cpp"]}
{"id": "C48", "title": "Subsumed positions are removed from states", "statement": "unsubsume.h documents that all positions subsumed by another position of the same state are removed, and subsumes.h that this is required. FALSE: merge orders states by descending errors while unsubsume scans for later positions with more errors, so in every transition it removes nothing.", "quantifier": "all reachable states", "why_tests_cant": "The transducer's results are right regardless, so no result-based test notices.", "anchors": ["src/liblevenshtein/transducer/unsubsume.cpp", "src/liblevenshtein/transducer/merge.cpp", "src/liblevenshtein/transducer/state_transition.cpp"]}
{"id": "C49", "title": "unsubsume on states ordered by ascending errors", "statement": "On a state ordered by ascending number of errors, unsubsume keeps exactly the positions not subsumed by a kept earlier position with fewer errors, in order, for every subsumption relation.", "quantifier": "all ascending states, all subsumption predicates", "why_tests_cant": "Needs all lists and predicates.", "anchors": ["src/liblevenshtein/transducer/unsubsume.cpp", "src/liblevenshtein/transducer/state_iterator.cpp"]}
{"id": "C50", "title": "compare is a total order", "statement": "compare<A> is reflexive, antisymmetric up to equality of positions (index and errors, and the special flag for the extended algorithms), transitive and total, without overflow.", "quantifier": "all positions, all algorithms", "why_tests_cant": "Needs all triples of 64-bit positions.", "anchors": ["src/liblevenshtein/transducer/comparator.cpp"]}
{"id": "C51", "title": "subsumes is sound", "statement": "subsumes.h documents: if subsumes(lhs,rhs,n) then every candidate reachable from rhs is reachable from lhs. Holds for STANDARD if lhs has at most as many errors as rhs. FALSE otherwise (unsigned wraparound), and FALSE for TRANSPOSITION and MERGE_AND_SPLIT, which read the special flag of lhs twice and never look at that of rhs.", "quantifier": "all pairs of positions, queries, remaining terms", "why_tests_cant": "subsumes is effectively dead code at run time.", "anchors": ["src/liblevenshtein/transducer/subsumes.cpp"]}
{"id": "C52", "title": "Linked-list operations of State are memory-safe and implement list operations", "statement": "head, add, insert_after, remove, sort and the iterators implement the corresponding operations on a finite sequence; no operation dereferences null or a deleted position, creates a cycle, or loses a position. Read from memory, the distance of a state is the least number of errors plus remaining characters over the positions that count, and 2^64-1 if there is none.", "quantifier": "all finite sequences of operations on a state that respect the documented conventions", "why_tests_cant": "Pointer manipulation; needs all lists.", "anchors": ["src/liblevenshtein/transducer/state.cpp", "src/liblevenshtein/transducer/state_iterator.cpp", "src/liblevenshtein/transducer/position.cpp", "src/liblevenshtein/transducer/distance.cpp"]}
{"id": "C53", "title": "Candidates spell the path", "statement": "The string built for a prefix or an intersection is the concatenation of the labels from the root, for any depth.", "quantifier": "all paths", "why_tests_cant": "Needs all paths.", "anchors": ["src/liblevenshtein/collection/prefix.cpp", "src/liblevenshtein/transducer/intersection.cpp"]}
{"id": "C54", "title": "Characteristic vectors", "statement": "characteristic_vector(x,term,k,i) has length k and its j-th entry says whether term[i+j]==x; index_of returns the first set entry of the window or SIZE_MAX; neither reads out of range in a query.", "quantifier": "all terms, windows, characters", "why_tests_cant": "Needs all windows.", "anchors": ["src/liblevenshtein/transducer/lazy_query.cpp:characteristic_vector", "src/liblevenshtein/transducer/position_transition.cpp:index_of"]}
{"id": "C55", "title": "Lifetimes: dictionary, transducers and queries may be destroyed in any order", "statement": "A program that builds a dictionary from sorted terms, makes transducers on it, and starts, advances and destroys queries, transducers and dictionary in any order, advancing a query only while its transducer and the dictionary exist and destroying each object at most once, has no undefined behaviour; every query not yet destroyed shows the candidate that it would show when run alone, even when transducer and dictionary are gone; when everything is destroyed no intersection, state, position or node is left. Limits: advancing a query that shows a candidate, even the last one, after the dictionary was destroyed while its transducer still exists is undefined behaviour, and so is advancing a query that has a further candidate after its transducer was destroyed (which may yield a string that is no term if the address was reused); advancing a complete query needs neither.", "quantifier": "all sorted term lists (terms shorter than 2^62), all allocators (addresses may be reused), all previous memory contents, all programs of these operations, all three algorithms, queries of fewer than 2^62 characters (fewer than 2^31, unless the maximum distance is below 2^30), distances below 2^64", "why_tests_cant": "The number of orders of operations is unbounded, and dangling pointers usually still point to the old contents when a test runs.", "anchors": ["src/liblevenshtein/transducer/lazy_query.cpp:8-77", "src/liblevenshtein/transducer/transducer.cpp:13-35", "src/liblevenshtein/transducer/intersection.cpp:7-37", "src/liblevenshtein/collection/dawg.cpp:22-26"]}
{"id": "C56", "title": "FALSE: copies of queries, transducers, dictionaries and iterators can be destroyed like the originals", "statement": "FALSE: destroying an object and a copy of it made by the copy constructor is harmless. The compiler provides copy constructors that copy owning pointers: destroying original and copy is undefined behaviour for every transducer, every dictionary, every iterator over a dictionary however often incremented, and for a query if and only if it has made an intersection of its own, in particular for a query that shows a candidate after at least one increment.", "quantifier": "all dictionaries built from sorted terms, all programs as in C55 before the copy, all allocators", "why_tests_cant": "The tests never copy these objects; a double delete often goes unnoticed without a sanitizer.", "anchors": ["src/liblevenshtein/transducer/lazy_query.h:26-129", "src/liblevenshtein/transducer/lazy_query.cpp:26-30", "src/liblevenshtein/transducer/transducer.cpp:20-23", "src/liblevenshtein/collection/dawg_iterator.cpp:17-21", "src/liblevenshtein/collection/sorted_dawg.cpp:11-13"]}
{"id": "C57", "title": "Comparison of iterators", "statement": "Iterators over one dictionary are equal if and only if they were incremented equally often, and then show the same term; an iterator equals end() if and only if it was incremented size() times. FALSE for different dictionaries: equal iterators can show different terms. A query equals end() (or any other query) if and only if its candidates are exhausted, so a range-for stops in the right place; but a query that shows a candidate does not equal itself, and end() on the left never equals anything.", "quantifier": "all dictionaries built from sorted terms, all numbers of increments, all programs as in C55, all queries on the right", "why_tests_cant": "Two unbounded numbers of increments are compared; tests only compare with end().", "anchors": ["src/liblevenshtein/collection/dawg_iterator.cpp:23-35", "src/liblevenshtein/transducer/lazy_query.cpp:112-116", "src/liblevenshtein/transducer/lazy_query.cpp:143-152"]}
{"id": "C58", "title": "Building and querying, end to end", "statement": "Building a dictionary from sorted terms and querying it with any algorithm and maximum distance yields exactly the terms whose distance (as reported by the distance function) is within the maximum, each once, by length and then by char order.", "quantifier": "all sorted term sequences, queries, maximum distances, algorithms, both signednesses of char", "why_tests_cant": "Composition of construction, memory layout and query over an unbounded input space; tests sample one dictionary.", "anchors": ["src/liblevenshtein/collection/sorted_dawg.cpp:sorted_dawg", "src/liblevenshtein/transducer/lazy_query.cpp", "src/liblevenshtein/distance/memoized_distance.cpp"]}
{"id": "C59", "title": "Adding a term between finish and clean_up", "statement": "A term accepted by add after finish() (and before clean_up()) should be in the dictionary and no other. FALSE: the stack of unchecked transitions is empty, so the part of the term after the common prefix is attached to the root: after ab, finish, ac the dictionary contains c but not ac. What holds: if the first term taken after finish() does not begin with the same letter as the last one taken before it, then every call returns what it should, exactly the terms taken before and after are accepted, size() is their number, the dictionary is minimal and deleting it leaves memory as it was. What happens in all other cases is C107.", "quantifier": "all pairs of terms (negation by witness); what holds: all sequences of calls before and after finish(), all allocators, signed and unsigned char", "why_tests_cant": "The public functions are never called in this order by the tests; the acceptance looks successful.", "anchors": ["src/liblevenshtein/collection/sorted_dawg.cpp:SortedDawg::add", "src/liblevenshtein/collection/sorted_dawg.cpp:SortedDawg::finish"]}
{"id": "C60", "title": "Foreign messages with unreachable nodes or cycles", "statement": "Deleting a deserialized dictionary should end and free everything that reading it allocated. FALSE: a listed node that cannot be reached from the root is never freed, and if a cycle of edges can be reached from the root, deletion (and every traversal of all nodes) never ends.", "quantifier": "all well-formed messages with an unreachable node, respectively with a reachable cycle", "why_tests_cant": "Malformed inputs are unbounded, and non-termination cannot be observed.", "anchors": ["src/liblevenshtein/serialization/serializer.cpp:from_protobuf", "src/liblevenshtein/collection/dawg.cpp:Dawg::all_nodes", "src/liblevenshtein/collection/dawg.cpp:Dawg::~Dawg"]}
{"id": "C61", "title": "Round trip through the bytes of a file", "statement": "Writing a dictionary to a stream in the protobuf format and reading the bytes in any memory of any process (char signed or not) gives a dictionary with the same terms and size; writing returns false only if the message needs more than INT_MAX bytes, which 20 V + 35 E + 44 bounds for V nodes and E edges.", "quantifier": "all dictionaries with 64-bit addresses, all memories and allocators, both signednesses of char", "why_tests_cant": "Tests compare a few files; ids are addresses that differ in every run, and lengths of variable-length integers, omitted zero labels and sign-extended labels depend on the data.", "anchors": ["src/liblevenshtein/serialization/serializer.cpp:serialize_protobuf", "src/liblevenshtein/serialization/serializer.cpp:deserialize_protobuf", "proto/liblevenshtein.proto:Dictionary"]}
{"id": "C62", "title": "A file that was cut off", "statement": "Reading a file of which only a proper beginning was written should return the null pointer. FALSE: the empty file and every cut between two fields is accepted. What holds for every cut: the result is null, or a dictionary with a null root that contains nothing (and is undefined behaviour to delete), or, if only the size is missing, the whole dictionary with size 0; never a dictionary with some of the terms missing. Exactly which cuts go unnoticed: the file is a sequence of nonempty fields (one for the nodes, one for the final nodes if there are any, one for each edge, one for the root, one for the size if it is not 0), and a beginning of the file gives the null pointer exactly if it ends inside a field.", "quantifier": "all dictionaries, all proper prefixes of the bytes written, all memories", "why_tests_cant": "A cut is possible after every byte of every file; which ones go unnoticed depends on where the fields end.", "anchors": ["src/liblevenshtein/serialization/serializer.cpp:deserialize_protobuf", "src/liblevenshtein/serialization/serializer.cpp:from_protobuf"]}
{"id": "C63", "title": "The demo program answers and saves exactly", "statement": "A run of the example program without a serialized dictionary takes the lines of the dictionary file as terms (up to 39 million bytes), answers each query line with exactly the terms within the maximum distance, in order, exits with 0, frees everything, and leaves in the serialization file a dictionary of these terms. A run with such a file, on any machine and with any options, answers for those terms, even if the dictionary file has changed, and leaves such a file again.", "quantifier": "all command lines, files, inputs with complete lines (each of a length as in C39), memories and allocators whose next 2^31 addresses have 64 bits", "why_tests_cant": "The program is a composition of option parsing, streams, sorting, building, queries, writing and reading; there is no test of it at all.", "anchors": ["example/src/main.cpp:main", "example/src/command_line.cpp:CommandLine::parse_opts", "src/liblevenshtein/serialization/serializer.cpp:serialize_protobuf"]}
{"id": "C64", "title": "Cost of a query", "statement": "A finished query has visited exactly the prefixes in the dictionary that can be continued, by whatever characters, to a string within max_distance, each once; the number of iterations of its loop is the number of these prefixes plus the number of edges leaving them (at most 257 per prefix). A state has at most (n+1)^2 positions, (n+1)^2 + n^2 with special positions, whatever the lengths of query and terms.", "quantifier": "all dictionaries, queries, distances and algorithms; all intermediate states of a query", "why_tests_cant": "A bound on the work for every dictionary and query; tests measure some.", "anchors": ["src/liblevenshtein/transducer/lazy_query.cpp:advance", "src/liblevenshtein/transducer/state_transition.cpp:StateTransition::operator()"]}
{"id": "C65", "title": "The guarantee of the README in terms of operations", "statement": "Every candidate of a query is turned into the query term by as many elementary operations as its reported distance, at most max_distance. STANDARD and MERGE_AND_SPLIT miss no term that at most max_distance operations turn into the query term. FALSE for TRANSPOSITION: the query (\"CA\", 2) misses \"ABC\", two operations away. What holds there: a term k operations away is found whenever floor(3k/2) <= max_distance.", "quantifier": "all dictionaries, query terms, distances and sequences of operations", "why_tests_cant": "The set of operation sequences is infinite; the missed terms are rare in random data.", "anchors": ["README.md", "src/liblevenshtein/transducer/lazy_query.cpp", "src/liblevenshtein/transducer/transducer.h"]}
{"id": "C66", "title": "Command line of the demo program", "statement": "Of each kind of option the last one counts, otherwise the default; --help ends with code 0, a missing value with 2, a dictionary file that does not exist (or neither file) with 3, an unknown argument with 4; every command line is of one of these forms, no argument is read out of bounds, and a refused command line changes nothing. The numeral of a number, also with leading zeros, is that maximum distance, or the largest size_t; what any other value gives is described, and none is refused (\"-1\" is the largest distance, \"x\" is 0).", "quantifier": "all lists of arguments and all sets of existing files", "why_tests_cant": "Lists of arguments of any length, including option words used as values.", "anchors": ["example/src/command_line.cpp:CommandLine::parse_opts", "example/src/command_line.cpp:CommandLine::next_path"]}
{"id": "C67", "title": "The demo program ends properly", "statement": "The example program should end with a code for all files and inputs. FALSE: a last input line without newline is repeated for ever; a serialization file that is empty, or in which the root is missing, is undefined behaviour for every input, and a dictionary whose message is too large leaves an empty file. What holds: without a serialized dictionary and with a dictionary file of at most 39 million bytes it ends with code 0 for every input of fewer than 2^31 bytes whose last line is complete.", "quantifier": "all files, inputs and command lines", "why_tests_cant": "Non-termination and undefined behaviour; the interactive program is used by hand.", "anchors": ["example/src/main.cpp:prompt", "example/src/main.cpp:main", "src/liblevenshtein/serialization/serializer.cpp:from_protobuf"]}
{"id": "C68", "title": "The library as a whole, at the level of objects in memory", "statement": "Sorted terms give a dictionary. Whatever transducers and queries a program makes on it, in whatever order it advances and destroys them (within the rules of C55), a query shows after k increments the k-th of its candidates and is complete when there is none; the candidates are exactly the terms within the maximum distance, with their distances, by length and then in the order of char, none twice. When everything is destroyed the memory is what it was before.", "quantifier": "all sorted term lists (terms shorter than 2^62), all allocators, all previous memory contents, all programs, the three algorithms, queries of fewer than 2^62 characters (fewer than 2^31, unless the maximum distance is below 2^30), distances below 2^64, signed and unsigned char", "why_tests_cant": "The statement composes every layer from the sorted word list to the destructors, for unbounded inputs and programs.", "anchors": ["src/liblevenshtein/collection/sorted_dawg.cpp", "src/liblevenshtein/transducer/lazy_query.cpp", "src/liblevenshtein/transducer/state.cpp", "src/liblevenshtein/transducer/intersection.cpp"]}
{"id": "C69", "title": "Queries in several threads on one dictionary and shared transducers", "statement": "After a dictionary, transducers and queries were made, any number of threads make transducers and queries of their own and query the shared transducers; a thread advances and destroys only objects that it made. In every interleaving of their memory accesses there is no undefined behaviour and no data race; every thread that has not finished can go on, and no execution is infinite; the queries of a thread show what they show when it runs alone, that is exactly the terms within the maximum distance; when all threads have destroyed what they made, the memory is what it was when they started. If a thread destroys a shared transducer, there are executions with a data race and with a read of a deleted object.", "quantifier": "all sorted term lists (terms shorter than 2^62), all allocators (also those that hand a thread an address another thread has just given back), all numbers and programs of threads, all interleavings, the three algorithms", "why_tests_cant": "A test sees few of the interleavings, and a data race need not show in the output.", "anchors": ["src/liblevenshtein/transducer/lazy_query.cpp", "src/liblevenshtein/transducer/transducer.cpp", "src/liblevenshtein/transducer/intersection.cpp", "src/liblevenshtein/transducer/state.cpp", "src/liblevenshtein/transducer/state_transition.cpp"]}
{"id": "C70", "title": "What the demo program prints", "statement": "When the options are accepted, standard output is the configuration followed by the conversation: for each query term the question and one line d(\"query\", \"term\") = distance per answer, then the question and a farewell; nothing goes to the error stream. The configuration can be read off the text whatever the paths contain, and the answers can be read off it if no term contains a newline (terms of a dictionary file never do; otherwise the text is ambiguous). Each refused command line gets its complaint on the error stream and nothing on standard output.", "quantifier": "all command lines, files, dictionaries, query terms", "why_tests_cant": "Unambiguity quantifies over pairs of runs, with quotes, backslashes and text that imitates output inside terms and paths.", "anchors": ["example/src/main.cpp:query", "example/src/main.cpp:prompt", "example/src/main.cpp:main", "example/src/command_line.cpp:CommandLine::print_config", "example/src/command_line.cpp:CommandLine::print_help"]}
{"id": "C71", "title": "The project's tests of nodes, transitions, prefixes and dictionaries pass for all inputs", "statement": "The bodies of the tests of DawgNode, Transition, Prefix and SortedDawg, taken as programs, get to their last line without a failed assertion and without undefined behaviour: the three tests of DawgNode for all sets of labels, the test of Prefix for all strings, contains_expected_terms for all sets of terms, rejects_unsorted_terms as soon as a shuffle gives an order that is not sorted (if none does, it never ends). Transition, Prefix and SortedDawg tests give back all memory; the tests of DawgNode lose one node per label.", "quantifier": "all labels, strings, term sets (terms shorter than 2^31), sequences of shuffles, allocators and previous memory contents, signed and unsigned char", "why_tests_cant": "RapidCheck runs each test on 100 random values of its parameters; the theorem is about all values, and about memory, which the tests do not check.", "anchors": ["test/liblevenshtein/collection/test_dawg_node.cpp", "test/liblevenshtein/collection/test_transition.cpp", "test/liblevenshtein/collection/test_prefix.cpp", "test/liblevenshtein/collection/test_sorted_dawg.cpp"]}
{"id": "C72", "title": "The project's tests of states and comparators pass for all inputs", "statement": "The six tests of State, the test of insert_after and the test of the comparators, taken as programs, pass for all lists of positions (the tests themselves discard the empty list, or lists of fewer than three, where they need more) and leave all positions and states in memory as they were.", "quantifier": "all lists of positions, all allocators, all previous memory contents, both evaluation orders in State::merge_sort", "why_tests_cant": "RapidCheck runs each test on 100 random values of its parameters; the tests do not check memory.", "anchors": ["test/liblevenshtein/transducer/test_state.cpp", "test/liblevenshtein/transducer/test_merge.cpp", "test/liblevenshtein/test/utils/test_comparators.cpp"]}
{"id": "C73", "title": "The project's tests of distances, transducers and of the serializer pass for all inputs", "statement": "On one distance object, any number of cases of the tests of a distance, in any order, after any other calls, pass, except for the triangle inequality of the distance with transpositions. The test of SymmetricPair passes unless hash codes collide. The tests of the three transducers pass for all dictionaries, query terms and distances. The test of the serializer passes if the temporary file can be written and the dictionary is not too large for protobuf, and an assertion fails if the file cannot be written.", "quantifier": "all strings, call histories, dictionaries and sets of query terms (strings shorter than 2^31), distances below 2^64, allocators and previous memory contents, signed and unsigned char", "why_tests_cant": "RapidCheck runs each test on 100 random values of its parameters.", "anchors": ["test/liblevenshtein/distance/test_standard_distance.cpp", "test/liblevenshtein/distance/test_transposition_distance.cpp", "test/liblevenshtein/distance/test_merge_and_split_distance.cpp", "test/liblevenshtein/distance/test_symmetric_pair.cpp", "test/liblevenshtein/transducer/test_transducer.cpp", "test/liblevenshtein/serialization/test_protobuf_serializer.cpp"]}
{"id": "C74", "title": "Two of the project's tests assert something that is not always true", "statement": "The test of the triangle inequality of TranspositionDistance fails for x = \"CA\", y = \"ABC\", z = \"AC\", whatever was asked before, and in general exactly where the distance violates the inequality. The test of SymmetricPair asserts that pairs that differ have different hash codes; it fails for two explicit strings of 16 bytes.", "quantifier": "all call histories; explicit strings", "why_tests_cant": "Random strings hardly ever hit the counterexamples, so the tests pass although what they assert is false.", "anchors": ["test/liblevenshtein/distance/test_transposition_distance.cpp:satisfies_triangle_inequality", "test/liblevenshtein/distance/test_symmetric_pair.cpp:is_comparable"]}
{"id": "C75", "title": "Exact outcome of reading any message or file", "statement": "from_protobuf is undefined behaviour exactly if some edge of the message starts at a node that is not listed or has been deleted, or deletes a node a second time (an edge with the source and character of an earlier one deletes that one's target). Otherwise it returns. Deleting what it returns is undefined behaviour if a missing node can be reached from the root, else never ends if a cycle can be reached, else ends, and gives all memory back exactly if every remaining node can be reached. contains is undefined behaviour exactly if a prefix of the term leads to a deleted node, or if the term has 2^31 characters or more and the first 2^31 - 1 of them lead to a listed node, and otherwise says whether the term leads to a listed final node. The result is a dictionary, with exact queries that yield by length and then by char, exactly if neither a missing node nor a cycle can be reached from the root. For a file of arbitrary bytes, the result is null exactly if the parser rejects it.", "quantifier": "all messages and byte sequences, allocators, previous memory contents, signed and unsigned char; terms looked up of any length, queries of fewer than 2^62 characters (fewer than 2^31, unless the maximum distance is below 2^30), distances below 2^64", "why_tests_cant": "The messages in question are written by no test; the classification quantifies over all graphs with arbitrary node numbers and repeated edges.", "anchors": ["src/liblevenshtein/serialization/serializer.cpp:from_protobuf", "src/liblevenshtein/serialization/serializer.cpp:deserialize_protobuf", "src/liblevenshtein/collection/dawg_node.cpp:add_edge", "src/liblevenshtein/collection/dawg.cpp:contains", "src/liblevenshtein/collection/dawg.cpp:all_nodes"]}
{"id": "C76", "title": "Deleting a dictionary takes one step per path, not per node: exponential in the size of a file", "statement": "The loop of Dawg::all_nodes runs exactly once for every string that can be read from the root (it expands a node again each time it comes up), and its result is the set of nodes that can be reached. So deleting a dictionary built from terms takes exactly as many iterations as the terms have different beginnings, at most one more than their number of characters; but for every n up to ten million there is a file of at most 80n+64 bytes, with n+1 nodes, without any fault, whose deletion takes exactly 2^(n+1)-1 iterations.", "quantifier": "all dictionaries, sequences of terms, messages without dangling edge and cycle, allocators; n up to ten million", "why_tests_cant": "Counting iterations needs instrumentation, and the bad case does not end in the lifetime of a test.", "anchors": ["src/liblevenshtein/collection/dawg.cpp:all_nodes", "src/liblevenshtein/collection/dawg.cpp:~Dawg", "src/liblevenshtein/collection/sorted_dawg.cpp:clean_up", "src/liblevenshtein/serialization/serializer.cpp:from_protobuf"]}
{"id": "C77", "title": "Computing a distance takes quadratic time and memory", "statement": "A call of between on an object with any table never computes a pair of suffixes twice: every set adds one entry, there are at most (|v|+1)(|w|+1) of them, and the calls of between (the outer one and those it makes of itself) are at most 1 + 3, 4 or 5 times as many, for the three classes. A pair asked before, in either order, takes one look at the table and adds nothing. Over a whole history of calls the table has at most the sum of (|v|+1)(|w|+1) entries. The bound for the entries is attained for strings of every positive length (standard distance).", "quantifier": "all algorithms, tables, histories and strings", "why_tests_cant": "Tests do not count calls; without the table, or with a table that fails to recognise its keys, results would be the same and only exponentially slower.", "anchors": ["src/liblevenshtein/distance/memoized_distance.cpp:get", "src/liblevenshtein/distance/memoized_distance.cpp:set", "src/liblevenshtein/distance/standard_distance.cpp:between", "src/liblevenshtein/distance/transposition_distance.cpp:between", "src/liblevenshtein/distance/merge_and_split_distance.cpp:between"]}
{"id": "C78", "title": "Exactly when subsumes is right, and a repair", "statement": "The documented relation between two positions (all that can be completed from the second within some number of errors can be completed from the first) holds exactly if the second has at least so many errors more, a number computed from indexes, flags and (for TRANSPOSITION) two characters of the query. If the second position has at least as many errors as the first, subsumes is exact for STANDARD; for TRANSPOSITION and MERGE_AND_SPLIT the pairs with a wrong yes, and those with a wrong no, are listed exactly. If the first has more errors, nothing is subsumed, and the code says yes except when TRANSPOSITION compares indexes alone. Reading the flag of the second position, with the largest distance as third argument, makes subsumes sound for all pairs that unsubsume compares.", "quantifier": "all queries shorter than 2^63, all positions that queries can have, both orders of errors", "why_tests_cant": "The relation quantifies over all continuations of the query; a test of subsumes has no reference for it.", "anchors": ["src/liblevenshtein/transducer/subsumes.cpp:subsumes", "src/liblevenshtein/transducer/unsubsume.cpp:operator()"]}
{"id": "C79", "title": "What the texts of nodes, dictionaries and pairs tell", "statement": "The text of a node gives its flag and its labels in order, separated by commas; two nodes have the same text exactly if flags and labels agree, whatever bytes the labels are. The text of a dictionary tells its size and, as far as the text of a pointer does, its root. The texts of two SymmetricPairs of strings without quotes are equal exactly if the unordered pairs are; with quotes in the strings two different pairs can have the same text.", "quantifier": "all nodes, all sizes and roots, all ways to print a pointer, all strings", "why_tests_cant": "No test prints these objects; that no two different ones share a text is a statement about all pairs of them.", "anchors": ["src/liblevenshtein/collection/dawg_node.cpp:operator<<", "src/liblevenshtein/collection/dawg.cpp:operator<<", "src/liblevenshtein/distance/symmetric_pair.cpp:operator<<"]}
{"id": "C80", "title": "Queries on graphs with cycles or missing nodes", "statement": "Graphs read from foreign files may have cycles, or edges to places where there is no node. If no prefix that can be continued to a string within the distance leads to a missing node, a query ends and yields exactly the strings of the language within the distance, with their distances, by length and then in the order of char; with cycles the language is infinite. If such a prefix leads to a missing node, the query is undefined behaviour, even if nothing of the language is within the distance. In terms of messages: the condition and the answers are those of walks along the edges of the message.", "quantifier": "all graphs in memory with sorted edges, all messages, all three algorithms, all queries and distances of at most 2^62-2 together (queries of fewer than 2^31 characters, unless the maximum distance is below 2^30)", "why_tests_cant": "The graphs are arbitrary and the languages infinite; no test loads a foreign file.", "anchors": ["src/liblevenshtein/transducer/lazy_query.cpp:advance", "src/liblevenshtein/serialization/serializer.cpp:from_protobuf"]}
{"id": "C81", "title": "Serializing any graph", "statement": "Dictionaries are exactly the finite graphs with sorted edges, without missing nodes and without cycles. On any finite graph with sorted edges, to_protobuf always ends, even with cycles: it is undefined behaviour exactly if a missing node can be reached, and otherwise the message lists every node that can be reached, every final one and every edge exactly once, in order. Reading that message on any platform gives a copy of the graph, node by node and edge by edge, with the same language and a cycle exactly if there was one; on the same platform it answers every query alike. Writing what was read from any message is undefined behaviour exactly if the message has a dangling edge to be reached; otherwise the rewritten message has the language of the old one, is well-formed, and lists nothing that can not be reached.", "quantifier": "all finite graphs in memory with sorted edges, all messages, both signednesses of char, all allocators, all queries", "why_tests_cant": "The graphs are arbitrary, with cycles and dangling edges; the tests only serialize dictionaries built by the library.", "anchors": ["src/liblevenshtein/serialization/serializer.cpp:collect_nodes", "src/liblevenshtein/serialization/serializer.cpp:collect_edges", "src/liblevenshtein/serialization/serializer.cpp:to_protobuf", "src/liblevenshtein/serialization/serializer.cpp:from_protobuf"]}
{"id": "C82", "title": "The demo program with any serialization file", "statement": "If the serialization file of the demo program holds any parsable message, its outcome is determined by the message and the input. Undefined behaviour exactly if the message is not readable, or some query can get to a missing node within the distance, or the input ends and a missing node can be reached at all (the file is written at the end). It never ends exactly if that is not so and the last line is unterminated, or a cycle can be reached; with a cycle, the answers are right and the file is rewritten before the deletion that never ends. In all other cases it ends with code 0, the answers are exactly the strings spelled by the message within the distance, the file is replaced by a tidy one for the same language (or by an empty one, if it would be too large), and all memory is given back exactly if every node that is there can be reached; the next run on the new file ends too, with the same answers, and leaks nothing.", "quantifier": "all messages, all inputs, all options, all allocators, queries and maximum distance of at most 2^62-2 together (queries of fewer than 2^31 characters, unless the maximum distance is below 2^30)", "why_tests_cant": "There are no tests of the demo program, and the files and inputs are arbitrary.", "anchors": ["example/src/main.cpp:main", "src/liblevenshtein/serialization/serializer.cpp:deserialize_protobuf", "src/liblevenshtein/serialization/serializer.cpp:serialize_protobuf"]}
{"id": "C83", "title": "The cost of hashing and comparing nodes", "statement": "Computing the hash code of a node of a dictionary evaluates the hash function exactly once for every string that can be read from the node, so for a built dictionary once for each different beginning of a term. Comparing two nodes evaluates operator== at least once and at most once for every string that can be read from either node, and exactly that often if they are equal. So for every n up to ten million there is a file of at most 80 n + 64 bytes that holds a correct dictionary of n + 1 nodes whose hash code, and whose comparison with itself, takes exactly 2^(n+1) - 1 evaluations.", "quantifier": "all dictionaries in memory, all pairs of nodes, all allocators, both signednesses of char", "why_tests_cant": "The tests only hash and compare small nodes, and do not count anything.", "anchors": ["src/liblevenshtein/collection/dawg_node.cpp:DawgNode::operator==", "src/liblevenshtein/collection/dawg_node.cpp:std::hash<DawgNode>::operator()"]}
{"id": "C84", "title": "The cost of building a dictionary", "statement": "sorted_dawg on sorted terms evaluates the hash function exactly as often as the different non-empty beginnings of the terms have characters in total, plus, for every node besides the root, the number of strings that can be read from it. operator== is evaluated at most twice the number of nodes times that number of characters, and at least twice for every pair of nodes with the same hash code. The hash code of a node uses only one byte of the hash code of each child, so nodes of the same finality with the same k labels have at most 256^k codes, and many such nodes must clash. One word of N characters takes exactly N(N+1) evaluations of the hash function; a word of 256 k + 1 equal characters takes at least 256 (k^2 - k) comparisons, although no two of its nodes are equal.", "quantifier": "all sorted lists of terms, all allocators, both signednesses of char", "why_tests_cant": "The tests do not count, and the terms are arbitrary.", "anchors": ["src/liblevenshtein/collection/sorted_dawg.cpp:SortedDawg::minimize", "src/liblevenshtein/collection/sorted_dawg.cpp:SortedDawg::minimized_node", "src/liblevenshtein/collection/sorted_dawg.cpp:sorted_dawg", "src/liblevenshtein/collection/dawg_node.cpp:std::hash<DawgNode>::operator()"]}
{"id": "C85", "title": "How deep the recursions go", "statement": "Hashing a node of a dictionary nests exactly L + 1 calls, where L is the length of the longest string that can be read from the node (for a built dictionary, of the longest term). Comparing two nodes nests at most L + 1 calls for the L of either, and exactly that many if they are equal. Serializing a dictionary nests at most L + 1 calls, and exactly that many if it holds a single term. The text of a prefix or of an intersection nests one call more than it has characters. Deleting a state nests one destructor per position, at most (n + 1)^2, plus n^2 unless the algorithm is standard, for a state of a query; sorting N positions nests the fewest calls c with N <= 2^(c-1). The distance of two words nests at most as many calls as they have characters together (or one), whatever the memo holds, and for all lengths there are words for which it nests that many.", "quantifier": "all dictionaries, nodes, terms, prefixes, intersections, states, pairs of words, memos and algorithms", "why_tests_cant": "The tests do not measure the stack, and only use short words.", "anchors": ["src/liblevenshtein/collection/dawg_node.cpp:DawgNode::operator==", "src/liblevenshtein/collection/dawg_node.cpp:std::hash<DawgNode>::operator()", "src/liblevenshtein/serialization/serializer.cpp:collect_nodes", "src/liblevenshtein/serialization/serializer.cpp:collect_edges", "src/liblevenshtein/collection/prefix.cpp:operator<<", "src/liblevenshtein/transducer/intersection.cpp:operator<<", "src/liblevenshtein/transducer/position.cpp:Position::~Position", "src/liblevenshtein/transducer/state.cpp:State::merge_sort", "src/liblevenshtein/distance/standard_distance.cpp:StandardDistance::between", "src/liblevenshtein/distance/transposition_distance.cpp:TranspositionDistance::between", "src/liblevenshtein/distance/merge_and_split_distance.cpp:MergeAndSplitDistance::between"]}
{"id": "C86", "title": "Iterating over any graph", "statement": "In a graph whose edges are sorted, whether or not it has cycles or edges to places without a node: after k increments the iterator is at the k-th term (counted from 0, by length and then by char) if no string before that term leads to a missing node; it is undefined behaviour if some string leads to a missing node and at most k terms come before it; it never comes back if there is a cycle, no missing node and at most k terms; and without cycle and missing node it stays at the last term. There is no fifth case. A range-for over a dictionary that claims size terms comes out as size increments do, that is, it looks for one term more than it yields: on a graph with a cycle or a missing node it may hang or be undefined although the size is right and all terms have been yielded. When it ends it yields the first size terms, or all terms and then the last one again, and frees all prefixes.", "quantifier": "all graphs with sorted edges, sizes, numbers of increments, allocators; all messages that can be read", "why_tests_cant": "The tests only iterate over dictionaries that were built or read back from their own files.", "anchors": ["src/liblevenshtein/collection/dawg_iterator.cpp:DawgIterator::advance", "src/liblevenshtein/collection/dawg_iterator.cpp:DawgIterator::operator++", "src/liblevenshtein/collection/dawg_iterator.cpp:DawgIterator::operator==", "src/liblevenshtein/collection/prefix.cpp:operator<<", "src/liblevenshtein/collection/dawg.cpp:Dawg::begin", "src/liblevenshtein/collection/dawg.cpp:Dawg::end"]}
{"id": "C87", "title": "Hashing and comparing any graphs", "statement": "In graphs whose edges are sorted, whether or not they have cycles or edges to places without a node: hashing a dictionary gives a value exactly if its graph has neither cycle nor missing node; it is undefined behaviour exactly if there is a first string, in lexicographic order, that leads to a missing node, with finitely many readable strings before it; otherwise it recurses for ever. Comparing two dictionaries of the same size says equal exactly if both graphs have neither cycle nor missing node, the same strings can be read in both and both have the same language; it says unequal, or is undefined, exactly if the first thing met in lexicographic order is a difference, or a missing node, with finitely many common strings before it; otherwise it recurses for ever. So without missing nodes it is never undefined. A graph compared with itself is equal exactly if it has neither cycle nor missing node; a graph with a null edge can be unequal to itself. Equality is symmetric, but one order of the operands can give unequal where the other is undefined.", "quantifier": "all memories, all pairs of graphs with sorted edges, both signednesses of char; all messages that can be read", "why_tests_cant": "The tests only hash and compare nodes and dictionaries that were built or read back from their own files.", "anchors": ["src/liblevenshtein/collection/dawg_node.cpp:DawgNode::operator==", "src/liblevenshtein/collection/dawg_node.cpp:std::hash<DawgNode>::operator()", "src/liblevenshtein/collection/dawg.cpp:Dawg::operator==", "src/liblevenshtein/collection/dawg.cpp:std::hash<Dawg>::operator()"]}
{"id": "C88", "title": "The helpers of the tests", "statement": "gen_rand_str returns a string of the length asked for, of digits and letters; the letter z never occurs although it is in the list of characters, and every string of the others can occur. gen_temp_path returns a name that no file has, made of prefix, ten random characters and extension with a dot in between unless there is one or the extension is empty; it ends exactly if such a name turns up, and otherwise searches for ever. It can return the same name twice if no file is written in between. The handler for the end of the program is registered exactly once, at the first call; when all runs of the serializer's test have passed and the program has ended, all files are as before. The text that init_rapidcheck puts into RC_PARAMS determines all eight settings if no value contains a space or a zero byte, and need not otherwise.", "quantifier": "all sequences of random numbers, files, prefixes, extensions, sets of terms and configurations", "why_tests_cant": "The helpers have no tests of their own, and that a letter never occurs is not visible in a sample.", "anchors": ["test/liblevenshtein/test/utils/file_utils.cpp:gen_rand_str", "test/liblevenshtein/test/utils/file_utils.cpp:gen_temp_path", "test/liblevenshtein/config/rapidcheck_parser.cpp:RapidCheckParser::parse", "test/liblevenshtein/config/rapidcheck_parser.cpp:init_rapidcheck"]}
{"id": "C89", "title": "Assignments between objects that own memory", "statement": "LazyQuery, Transducer, SortedDawg and DawgIterator have the assignment operators that the compiler provides. After any program that respects the lifetimes of objects, any sequence of copies and assignments of queries and transducers followed by the destruction of all of them, in any order, is undefined behaviour if and only if some intersection then has two owners; otherwise exactly the intersections (with their states) that have lost their owner are leaked. In particular queries[i] = queries[j] followed by destruction is undefined if and only if queries[j] has made an intersection, and leaks all intersections of queries[i] otherwise; std::swap is undefined if and only if its first argument has made an intersection, and harmless otherwise; assignment of an object to itself is harmless; an assigned transducer, dictionary (as SortedDawg or as Dawg) or dictionary iterator always makes destruction undefined, and what the overwritten object owned is left in memory.", "quantifier": "all dictionaries, all programs, all sequences of copies and assignments, all orders of destruction, all allocators", "why_tests_cant": "No test assigns such an object; whether an assignment crashes depends on how far the query has got and on the allocator.", "anchors": ["src/liblevenshtein/transducer/lazy_query.h:LazyQuery", "src/liblevenshtein/transducer/transducer.h:Transducer", "src/liblevenshtein/collection/sorted_dawg.h:SortedDawg", "src/liblevenshtein/collection/dawg_iterator.h:DawgIterator"]}
{"id": "C90", "title": "Queries that run out of memory", "statement": "std::bad_alloc may be thrown by any allocation made while a query is advanced. Whichever allocations fail, any number of times: operator++ is never undefined behaviour, any number of calls may follow, and the query and the transducer can be destroyed. A caller who calls operator++ again after each exception comes to the end and sees, in the right order, exactly the candidates that no exception made the query miss; an exception makes it miss the term it was about to report, or all terms that begin with the string of a node it was about to look at, for good. After an exception the query compares equal to its end and still holds the previous candidate, so a caller who goes on with the loop test sees a beginning of the right answer. After destruction there is exactly one more state in memory for each exception thrown inside the transition (after its first allocation) or between the transition and the registration of the new intersection, and memory is as before if there was no such exception. Memory may also run out in the string stream of str(), which throws nothing: then the candidate is reported with its distance but only a beginning of its term. If the constructor throws, all states made so far stay in memory.", "quantifier": "all dictionaries, queries, distances, algorithms, allocators, all sequences of failing allocations", "why_tests_cant": "No test makes an allocation fail; the places at which it may fail during one query are too many to try, and the lost candidates look like a correct shorter answer.", "anchors": ["src/liblevenshtein/transducer/lazy_query.cpp:advance", "src/liblevenshtein/transducer/lazy_query.cpp:build_intersection", "src/liblevenshtein/transducer/lazy_query.cpp:LazyQuery", "src/liblevenshtein/transducer/state_transition.cpp:operator()", "src/liblevenshtein/transducer/position_transition.cpp:position_transition", "src/liblevenshtein/transducer/intersection.cpp:str"]}
{"id": "C91", "title": "Building a dictionary that runs out of memory", "statement": "std::bad_alloc may be thrown by any allocation made while a dictionary is built. sorted_dawg is never undefined, and it is all or nothing: a correct dictionary of all terms, a null pointer with all memory freed if the terms are not in order, an exception after which exactly all nodes made so far stay in memory for good, or the end of the program if the destructor throws. A caller of add, finish and clean_up may catch exceptions and go on, any number of times, as long as each term is smaller than the last one that was added (and so refused), or is not smaller than any given before and has no more letters in common with what an exception left behind than with the last term added; then nothing is undefined, size() counts the calls of add that returned true, the words accepted in the end are known exactly, and deletion frees all nodes but one for each failed registration of a new node. Calls with terms in order are such if no exception leaves a part of a term behind. If one does - an allocation fails after the first new letter - and the caller adds the same term again, add returns true but finish and clean_up are undefined behaviour. A failed lookup or edge loses words added before, which size() still counts; a term smaller than one whose call threw may be accepted but stored as another word.", "quantifier": "all terms, all sequences of calls, all sequences of failing allocations, all allocators", "why_tests_cant": "No test makes an allocation fail; which exceptions are harmless depends on the letters the terms have in common.", "anchors": ["src/liblevenshtein/collection/sorted_dawg.cpp:add", "src/liblevenshtein/collection/sorted_dawg.cpp:minimize", "src/liblevenshtein/collection/sorted_dawg.cpp:finish", "src/liblevenshtein/collection/sorted_dawg.cpp:clean_up", "src/liblevenshtein/collection/sorted_dawg.cpp:sorted_dawg", "src/liblevenshtein/collection/dawg_node.cpp:add_edge"]}
{"id": "C92", "title": "Distances that run out of memory", "statement": "Threads share one distance object, each making a list of calls, any of which may throw std::bad_alloc at any moment; its thread catches the exception and goes on with its next call. Whatever calls have thrown, a call that returns gives the distance a fresh object gives; the map is never written while another thread accesses it; an exception never leaves the mutex locked, so as long as calls are left some thread can go on without further exceptions; every execution is finite; and when no thread is in a call the mutex is free and any further call returns the right distance.", "quantifier": "all algorithms, all numbers of threads, all lists of calls, all interleavings, all moments of exceptions", "why_tests_cant": "No test makes an allocation fail, and interleavings of threads with exceptions at any moment can not be enumerated.", "anchors": ["src/liblevenshtein/distance/memoized_distance.cpp:get", "src/liblevenshtein/distance/memoized_distance.cpp:set", "src/liblevenshtein/distance/standard_distance.cpp:between", "src/liblevenshtein/distance/transposition_distance.cpp:between", "src/liblevenshtein/distance/merge_and_split_distance.cpp:between"]}
{"id": "C93", "title": "Iterators that run out of memory", "statement": "std::bad_alloc may be thrown by any allocation made while an iterator of a dictionary is made or advanced. Whichever allocations fail, any number of times: nothing is undefined behaviour, any number of calls of operator++ may follow, and the iterator can be destroyed. Its index counts the calls that returned, and if this is r it shows the term number r, by length and then lexicographically, of those that no exception made it miss, or the last of them if there are not as many. An exception makes it miss the term of the node at hand, and if it was thrown at an edge, all terms beyond this edge and the following ones, for good. So a caller who calls operator++ again after each exception sees as many terms as were added, but the last one again for each one missed. If memory runs out in the string stream nothing is thrown and a beginning of the term is shown. After destruction there is exactly one more prefix in memory for each exception thrown when a new prefix was to be stored. If the constructor throws, exactly the prefixes made so far stay in memory.", "quantifier": "all dictionaries, allocators, all sequences of failing allocations, all numbers of calls, all claimed sizes", "why_tests_cant": "No test makes an allocation fail; lost terms look like repeated ones.", "anchors": ["src/liblevenshtein/collection/dawg_iterator.cpp:advance", "src/liblevenshtein/collection/dawg_iterator.cpp:operator++", "src/liblevenshtein/collection/dawg_iterator.cpp:DawgIterator", "src/liblevenshtein/collection/prefix.cpp:str"]}
{"id": "C94", "title": "Saving and loading that fail", "statement": "std::bad_alloc may be thrown by any allocation of serialize_protobuf and deserialize_protobuf, and the disk may take only a part of the bytes. Saving to a path touches no other file. If the exception came before the file was opened or if it cannot be opened, its old content is left and true is not returned; in all other cases the old content is lost and the file holds a beginning of the right bytes, which is complete if true is returned and closing the file succeeded. The stronger claim that the file is complete if true is returned is false, because the result of closing it is not looked at. Loading the file afterwards gives what it gave before (if it was not opened), the null pointer, a dictionary without a root, or the whole dictionary with its size or with size 0, never some of the terms only. If the file was left empty, the next run of the demo program that loads it is undefined behaviour for every input. Loading any bytes with a failing allocation is as without it, or throws; then the older memory is unchanged, and what is left is what from_protobuf makes of the first nodes and the first edges. For a saved dictionary loading is never undefined; it throws exactly if it comes past the failing allocation, and exactly the nodes made so far stay in memory. A caller who repeats the call gets the right dictionary, and after its deletion exactly the nodes of the calls that threw are left.", "quantifier": "all dictionaries, messages, bytes, failing allocations, disks, files, allocators, sequences of repeated calls", "why_tests_cant": "No test makes an allocation or a write fail, looks for leaked nodes, or loads a file after a failed save.", "anchors": ["src/liblevenshtein/serialization/serializer.cpp:serialize_protobuf", "src/liblevenshtein/serialization/serializer.cpp:deserialize_protobuf", "src/liblevenshtein/serialization/serializer.cpp:from_protobuf", "example/src/main.cpp:main"]}
{"id": "C95", "title": "Memory while a dictionary is built", "statement": "While sorted_dawg builds a dictionary from sorted terms no node is deleted before clean_up, although minimize finds nodes superfluous all along: after each add, and after finish, there is one node for every different non-empty beginning of the terms added so far, and the root. clean_up then leaves exactly one node for every set of strings that make terms of a beginning. For all strings of n letters a and b these are 2^(n+1)-1 and n+1 nodes: the memory needed is exponential in that of the result.", "quantifier": "all sorted lists of terms, all allocators, all previous contents of memory, both signednesses of char; all n", "why_tests_cant": "The tests look at the finished dictionary only; the nodes kept in the meantime change no answer.", "anchors": ["src/liblevenshtein/collection/sorted_dawg.cpp:SortedDawg::add", "src/liblevenshtein/collection/sorted_dawg.cpp:SortedDawg::minimize", "src/liblevenshtein/collection/sorted_dawg.cpp:SortedDawg::clean_up"]}
{"id": "C96", "title": "Memory while queries run", "statement": "A query deletes nothing before it is destroyed. In any program with any transducers and queries, at any point, the intersections in memory are one for each transducer and, for each query that was not destroyed, one for each different non-empty beginning of a term that can be continued within the distance and comes, by length and then alphabetically, not after the candidate shown (all of them once the query is complete), however few candidates there are; each has one state, and a state has between 1 and (n+1)^2 positions, n^2 more for the algorithms other than STANDARD. For the strings of k letters a and b, whose dictionary has k+1 nodes, a query holds 2^(k+1)-2 intersections in the end.", "quantifier": "all sorted lists of terms, all programs that respect lifetimes and destroy no transducer, all allocators, all previous contents of memory; all k", "why_tests_cant": "The tests look at candidates only; memory that is held until the destructor runs changes no answer.", "anchors": ["src/liblevenshtein/transducer/lazy_query.cpp:LazyQuery::~LazyQuery", "src/liblevenshtein/transducer/lazy_query.cpp:LazyQuery::advance", "src/liblevenshtein/transducer/intersection.cpp:Intersection::~Intersection"]}
{"id": "C97", "title": "Words of any length", "statement": "The hash code of a pair of words is computed with the length converted to int. It is undefined behaviour exactly if the lowest 32 bits of the length of one of the words, as a signed number, are -8 or less (2^31 to 2^32-8, and so on modulo 2^32): then every call of between with that word is undefined. For words below 2^31 bytes no call is undefined, and for words of any length the answers are right if no call is undefined. Longer words are hashed by their first bytes only; all pairs of words of 2^32 bytes have the same hash code.", "quantifier": "all strings of any length, all seeds, all three distances, all sequences of calls on one object", "why_tests_cant": "The tests use short words; it takes a word of 2 GiB to see it.", "anchors": ["third-party/MurmurHash2.cpp:MurmurHash64A", "src/liblevenshtein/distance/symmetric_pair.cpp:hash<SymmetricPair>::operator()", "src/liblevenshtein/distance/memoized_distance.cpp"]}
{"id": "C98", "title": "Queries and membership for words of 2^31 characters or more", "statement": "contains and the characteristic vector of a query count with an int. contains(t) on a dictionary built from sorted terms is undefined behaviour exactly if t has 2^31 or more characters and its first 2^31-1 begin a term; for all other words it is right. A query is undefined behaviour exactly if it has 2^31 or more characters, the maximum distance is 2^30 or more, and some term is not empty; all other queries yield exactly the terms within the distance. Where a query is undefined, the empty term is still shown first if it is a candidate.", "quantifier": "all sorted lists of terms, all allocators and memories, all words (queries and dictionary terms below 2^62 characters in the claims on queries), all distances below 2^64, the three algorithms, signed and unsigned char", "why_tests_cant": "The tests use short words; it takes a word of 2 GiB to see it.", "anchors": ["src/liblevenshtein/collection/dawg.cpp:Dawg::contains", "src/liblevenshtein/transducer/lazy_query.cpp:characteristic_vector", "src/liblevenshtein/transducer/lazy_query.cpp:LazyQuery::advance"]}
{"id": "C99", "title": "Dictionaries built, searched and destroyed in several threads", "statement": "After some dictionaries were built, any number of threads call sorted_dawg, contains on dictionaries of their own and on the shared ones, and delete their own. In every interleaving of their accesses to nodes there is no undefined behaviour and no data race; the shared dictionaries stay as they are; every thread that has not finished can go on, no execution is infinite, and each can be continued to the end; every call shows what it shows when the thread runs alone: sorted_dawg gives a null pointer exactly for lists that are out of order, contains is right. At the end no node lives but those of the shared dictionaries and of the dictionaries that were not destroyed. A look-up while another thread adds to the same dictionary, and two threads that add to one dictionary, are data races; a look-up while another thread destroys the dictionary can read a deleted node.", "quantifier": "all shared dictionaries, all numbers of threads and all sequences of calls (words looked up shorter than 2^31), all interleavings, all allocators (also those that hand a thread an address another thread has just given back), signed and unsigned char", "why_tests_cant": "The tests use one thread; a data race need not show in the output.", "anchors": ["src/liblevenshtein/collection/dawg.cpp", "src/liblevenshtein/collection/sorted_dawg.cpp", "src/liblevenshtein/collection/dawg_node.cpp"]}
{"id": "C100", "title": "Exactly which bytes are read as which dictionary", "statement": "A grammar of bytes (tags, numbers, lengths, groups, packed and single numbers, edges) that says nothing of how they are read decides the outcome of deserialize_protobuf for every sequence of bytes: the null pointer, with nothing allocated, exactly if the bytes hold no message of the grammar; undefined behaviour exactly if they hold a message that cannot be read (C75); otherwise the dictionary of that message, which is the only one the bytes hold. What serialize_protobuf writes holds the message of the dictionary. Fields of unknown numbers between the fields change nothing.", "quantifier": "all sequences of bytes, all dictionaries whose addresses fit into 64 bits, all allocators, signed and unsigned char", "why_tests_cant": "The tests read only what the library wrote; there are infinitely many files.", "anchors": ["src/liblevenshtein/serialization/serializer.cpp", "proto/liblevenshtein.proto"]}
{"id": "C101", "title": "Several dictionaries in one stream", "statement": "serialize_protobuf to a stream appends and deserialize_protobuf reads to the end of the stream; no length is written. Two dictionaries without common nodes that are written one after the other are read as one dictionary with exactly the terms of the second; its size is that of the second, but that of the first if the second has none; when it is deleted exactly as many nodes as the first dictionary has are never given back. A dictionary with a non-empty term that is written twice to one stream gives undefined behaviour: on reading, or else on deleting the result and on looking up any non-empty term. A second read from the stream finds no bytes and gives a dictionary with a null root, whose deletion is undefined behaviour.", "quantifier": "all dictionaries whose addresses fit into 64 bits, all streams below 2^31 bytes, all allocators, signed and unsigned char", "why_tests_cant": "The tests write one dictionary per stream; whether reading twice-written dictionaries crashes depends on addresses.", "anchors": ["src/liblevenshtein/serialization/serializer.cpp"]}
{"id": "C102", "title": "init() on a finished dictionary", "statement": "init(), calls of add and remove, finish() and clean_up() on a dictionary that is finished already. If the first term taken does not begin with the letter of the last term of the dictionary: every call returns what it should, exactly the old terms and the ones taken are accepted, size() is their number, the result is a dictionary, and deleting it leaves memory as it was; but as soon as both parts have a non-empty term it is not minimal. If one term p+w is taken that shares the prefix p with the last term p+y: add returns true and size() grows, but w is added in place of p+w, provided no term begins with the first letter of w (the last term added once more adds the empty term). Otherwise undefined behaviour is possible: after aa, ba, finish, clean_up, init the term bb replaces the edge of the root and deletes a node that is still in use.", "quantifier": "all sequences of calls before and after, all allocators (the second construction may be handed the addresses that were freed), signed and unsigned char; the undefined behaviour by witness", "why_tests_cant": "The tests call init once; add returns true in all cases.", "anchors": ["src/liblevenshtein/collection/sorted_dawg.cpp:SortedDawg::init", "src/liblevenshtein/collection/sorted_dawg.cpp:SortedDawg::add", "src/liblevenshtein/collection/sorted_dawg.cpp:SortedDawg::clean_up"]}
{"id": "C103", "title": "Dictionaries resumed with init() and written and read back, any number of times", "statement": "A dictionary is built; then, in any order and any number of times, it is resumed (init(), calls of add and remove, finish(), clean_up(); or the same without finish()) or written by to_protobuf, deleted and read back by from_protobuf, after which add compares with the empty term again. As long as no term taken begins with the letter of a term that was there when the dictionary was resumed, or of the term taken before: every call returns what it should, exactly the terms taken are accepted except those of a resumption without finish() that begin with the letter of its last term, size() is the number of all terms taken, the result is a dictionary, and deleting it leaves memory as it was before the first step. Without that condition terms get lost (ab, written, read back, then ac: ab is gone) and undefined behaviour is possible (ab, bb, written, read back, then ac).", "quantifier": "all sequences of calls and steps, for each step all allocators that hand out what is free then, freed addresses included, signed and unsigned char; the losses and the undefined behaviour by witness", "why_tests_cant": "Deserialized dictionaries are only searched in the tests; the space of histories is infinite and add returns true in all cases.", "anchors": ["src/liblevenshtein/collection/sorted_dawg.cpp:SortedDawg::init", "src/liblevenshtein/collection/sorted_dawg.cpp:SortedDawg::add", "src/liblevenshtein/serialization/serializer.cpp:from_protobuf", "src/liblevenshtein/serialization/serializer.cpp:to_protobuf"]}
{"id": "C104", "title": "Memory and time an iterator over a dictionary takes", "statement": "After begin() and k increments an iterator is at the k-th term w, and holds one Prefix object, not freed before the iterator is destroyed, for every string that can be read from the root and that, without its last character, does not come after w by length and then by char. When no terms are left it holds one for every string that can be read: for a dictionary built from terms, at the last term and beyond, one for every different beginning of a term. Its loops take at least one iteration for each string up to the k-th term. For every n up to ten million there is a file of at most 80 n + 64 bytes, holding a dictionary of n + 1 nodes and no fault, for which begin() alone takes at least 2^n iterations and leaves 2^(n+1) - 1 prefixes allocated.", "quantifier": "all graphs with sorted edges (cycles allowed) where no string before w leads to a missing node, all k, all allocators, signed and unsigned char", "why_tests_cant": "The tests look at the terms yielded, not at memory or the number of iterations, and the number grows with the paths of a graph, not with its nodes.", "anchors": ["src/liblevenshtein/collection/dawg_iterator.cpp:DawgIterator::advance", "src/liblevenshtein/collection/dawg_iterator.cpp:DawgIterator::~DawgIterator", "src/liblevenshtein/collection/prefix.cpp:Prefix"]}
{"id": "C105", "title": "A dictionary while it is built, and clean_up() without finish()", "statement": "After any calls of add and remove on a new dictionary, before finish(): the calls return what they should and size() is the number of terms taken; of these contains(), iterators and queries find exactly the ones that do not begin with the letter of the last term taken (so never the term just added, unless it is empty). An iterator yields each once, by length and then by char, and then repeats the last one, or the empty string if there is none, until size() strings were yielded. A query yields what it finds once each, by length and then by char. No two nodes that can be reached have the same language. clean_up() called then leaves all this as it is and frees all other nodes. Destroying the dictionary in either case leaves memory as it was.", "quantifier": "all sequences of calls, all words, all three algorithms and distances below 2^64, all allocators, signed and unsigned char", "why_tests_cant": "The tests look at dictionaries after finish() only.", "anchors": ["src/liblevenshtein/collection/sorted_dawg.cpp:SortedDawg::add", "src/liblevenshtein/collection/sorted_dawg.cpp:SortedDawg::clean_up", "src/liblevenshtein/collection/sorted_dawg.cpp:SortedDawg::~SortedDawg", "src/liblevenshtein/collection/dawg.cpp:Dawg::contains"]}
{"id": "C106", "title": "Queries and iterators that are under way while their dictionary is changed", "statement": "On a new dictionary add, remove, finish() and clean_up() are called; a query or an iterator is begun; between its increments, in the same thread, add, remove, finish() and clean_up() are called again. As long as add is not called after finish() or clean_up(), nor finish() after clean_up(): the calls return what they should, nothing undefined happens, and what the query or iterator yields does not depend on what is done meanwhile. An iterator yields, by length and then by char, exactly the terms that could be seen when it was begun, and then the last one again. A query yields in that order exactly those within the distance, with their distances, among the terms that could be seen when it was begun; except that if the empty term is its first answer it is the terms that can be seen at its first increment. Afterwards the dictionary has the terms taken, as if there had been no query or iterator, and destroying both leaves memory as it was. After clean_up(), finish() and most calls of add are undefined behaviour.", "quantifier": "all sequences of calls before and between increments, all words shorter than 2^62, all three algorithms and distances below 2^64, all allocators, signed and unsigned char", "why_tests_cant": "The tests never change a dictionary while a query or an iterator is in use; interleavings are unbounded.", "anchors": ["src/liblevenshtein/collection/sorted_dawg.cpp:SortedDawg::add", "src/liblevenshtein/collection/sorted_dawg.cpp:SortedDawg::finish", "src/liblevenshtein/collection/sorted_dawg.cpp:SortedDawg::clean_up", "src/liblevenshtein/collection/dawg_iterator.cpp:DawgIterator::advance", "src/liblevenshtein/transducer/lazy_query.cpp:LazyQuery::advance"]}
{"id": "C107", "title": "add and finish in any order", "statement": "On a new dictionary add() and finish() are called any number of times in any order, then finish() and clean_up(). add() always returns whether the term is not smaller than the last one taken. A term that is taken is not always what gets stored: the letters it shares with the term before are replaced by those of them that are on the path since the last finish(), so after ab, finish, ab the dictionary has ab and the empty term. If the first letter after that already leads somewhere there, its edge is overwritten, and the calls end in undefined behaviour (a node is freed twice or read after it was freed); in all other cases they return, size() is the number of terms taken, exactly the stored words are accepted, the dictionary is minimal, and deleting it, then or before the last finish(), leaves memory as it was. The stored words are the terms taken if and only if no term taken after a finish() begins with the first letter of the term taken before it.", "quantifier": "all sequences of calls of add and finish with terms shorter than 2^62, all allocators, signed and unsigned char", "why_tests_cant": "The tests call finish once, at the end; a wrong word or a double free depends on which terms come after it.", "anchors": ["src/liblevenshtein/collection/sorted_dawg.cpp:SortedDawg::add", "src/liblevenshtein/collection/sorted_dawg.cpp:SortedDawg::finish", "src/liblevenshtein/collection/sorted_dawg.cpp:SortedDawg::minimize", "src/liblevenshtein/collection/sorted_dawg.cpp:SortedDawg::clean_up", "src/liblevenshtein/collection/dawg_node.cpp:DawgNode::add_edge"]}
{"id": "C108", "title": "A dictionary that is resumed any number of times", "statement": "On a new dictionary, any number of times one after the other: init(), calls of add and remove, perhaps finish(), and clean_up(). If the first term taken each time does not begin with the first letter of the last term taken before: every call returns what it should; accepted, and found by queries, are exactly all terms taken, except, for each time finish() was not called, those that begin with the first letter of the last term taken then; a query yields them by length and then by char, each once; size() counts the lost ones as well; deleting the dictionary leaves memory as it was. Terms lost in this way stay lost whatever is added later. If finish() was called every time, the terms are exactly those taken and size() is their number.", "quantifier": "all numbers of repetitions, all sequences of calls in each, all addresses that are free at each init(), all three algorithms and distances below 2^64, signed and unsigned char", "why_tests_cant": "The tests call init once per dictionary.", "anchors": ["src/liblevenshtein/collection/sorted_dawg.cpp:SortedDawg::init", "src/liblevenshtein/collection/sorted_dawg.cpp:SortedDawg::add", "src/liblevenshtein/collection/sorted_dawg.cpp:SortedDawg::finish", "src/liblevenshtein/collection/sorted_dawg.cpp:SortedDawg::clean_up"]}
{"id": "C109", "title": "A second construction on a dictionary, whatever its letters", "statement": "On a dictionary made by init(), calls of add and finish in any order, finish() and clean_up(), the same is done a second time. The second time is defined exactly if it overwrites no edge that it made itself and if no node behind an edge of the old root that it overwrites is needed elsewhere, that is, by the words alone: no letter c that a new word begins with and no other beginning p of an old word have the same endings, where p is another such letter or begins with a letter that no new word begins with. If it is defined, the old words that begin with the first letter of a new word are gone without notice (unless they are new words too), all other old words and the new words are accepted, size() goes on counting from the old value, and deleting the dictionary returns all memory exactly if every node below an overwritten edge was its first node or was needed elsewhere. If no new word begins with a letter that an old word begins with, nothing is lost.", "quantifier": "all sequences of calls in both constructions, all addresses that are free at each, signed and unsigned char", "why_tests_cant": "The tests call init once per dictionary.", "anchors": ["src/liblevenshtein/collection/sorted_dawg.cpp:SortedDawg::init", "src/liblevenshtein/collection/sorted_dawg.cpp:SortedDawg::add", "src/liblevenshtein/collection/sorted_dawg.cpp:SortedDawg::finish", "src/liblevenshtein/collection/sorted_dawg.cpp:SortedDawg::clean_up"]}
{"id": "C110", "title": "Iterators whose dictionary was deleted", "statement": "A dictionary was built by sorted_dawg, an iterator over it was begun and incremented k times, and the dictionary was deleted. The iterator can still be destroyed, which returns all its memory. If the dictionary had at most k+1 different terms, operator++ is defined, changes nothing but the index and reads no node; otherwise operator++ is undefined behaviour. A range-for whose body deletes the dictionary in round k is undefined in the second case, and in the first shows the last term until it has run size() rounds. FALSE: an iterator whose dictionary is gone at least shows terms: when the addresses are used again for another dictionary, it may show a string that is a term of neither.", "quantifier": "all lists of terms in order, all k, all addresses that are free, signed and unsigned char", "why_tests_cant": "Use after deletion seldom fails visibly; the tests keep the dictionary until the end.", "anchors": ["src/liblevenshtein/collection/dawg_iterator.cpp:DawgIterator::operator++", "src/liblevenshtein/collection/dawg_iterator.cpp:DawgIterator::advance", "src/liblevenshtein/collection/dawg.cpp:Dawg::~Dawg"]}
{"id": "C111", "title": "Advancing a query whose transducer is gone", "statement": "A query shows a candidate and its transducer is destroyed, the dictionary still exists, and the allocator does not hand out the address of the transducer's intersection again. Then operator++ on the query is undefined behaviour if and only if the query has a further candidate, or the candidate shown is the empty term, or it has one letter and some term of the dictionary begins with a later letter (in the order of char). In all other cases operator++ is defined and the query is complete after it; in particular whenever the candidate shown is the last one and has two or more letters. When the dictionary is destroyed as well, at any time before or right after the transducer, the operator++ that follows on a query that shows a candidate is always undefined behaviour, whatever addresses the allocator hands out.", "quantifier": "all sorted term lists (terms shorter than 2^62), all allocators that do not reuse that address, all previous memory contents, all programs of these operations before, all three algorithms, signed and unsigned char", "why_tests_cant": "Whether the dangling pointer is followed depends on the candidate and on the other terms; a loop to the end of the query works without its transducer for most last candidates.", "anchors": ["src/liblevenshtein/transducer/lazy_query.cpp:8-77", "src/liblevenshtein/transducer/transducer.cpp:13-35", "src/liblevenshtein/transducer/intersection.cpp:7-37"]}
{"id": "C112", "title": "Any number of constructions on one dictionary", "statement": "On a new dictionary any number of constructions are made one after the other, each with init, calls of add, remove and finish in any order, and a last finish. Each construction leaves a layer of words; a later construction removes from the layers the words that begin with the letter of one of its own. The whole is undefined behaviour if and only if some construction overwrites an edge that it has made itself, or an edge of the root whose node is also needed, in the layer of words it belongs to, behind another overwritten letter or a beginning that is kept. Otherwise every add returns what the rules about the last word say, the size counts all words taken, the dictionary contains exactly the words left in the layers and answers all lookups, and destroying it gives back all memory if and only if no construction left behind a node that is neither overwritten nor needed.", "quantifier": "all sequences of constructions, all calls in each, all words, all allocators handing out free addresses in each construction, all previous memory contents, signed and unsigned char", "why_tests_cant": "The same words are safe or undefined behaviour depending on how they are divided into constructions, since nodes are shared only within one.", "anchors": ["src/liblevenshtein/collection/sorted_dawg.cpp:SortedDawg::init", "src/liblevenshtein/collection/sorted_dawg.cpp:SortedDawg::add", "src/liblevenshtein/collection/sorted_dawg.cpp:SortedDawg::finish", "src/liblevenshtein/collection/sorted_dawg.cpp:SortedDawg::clean_up"]}
{"id": "C113", "title": "All programs with a StateIterator", "statement": "A state is made from positions and an iterator over it performs any sequence of ++, insert with a new position, and remove. Inserting while the iterator is at no position (at the end, or after a removal) puts the position at the front and the loop starts there; if the iterator had passed positions, it keeps a wrong predecessor until it leaves a position. As long as nothing is removed with a wrong predecessor, the program is defined, the state holds the sequence this describes, and destroying it gives back all memory. The first removal with a wrong predecessor is undefined behaviour if that predecessor is the last position of the state; otherwise it deletes the position behind that predecessor instead of the one shown, and the list becomes circular: neither a loop over the state nor its destructor ever ends. An iterator constructed at a position in the middle takes none for its predecessor: until it leaves a position, remove deletes the first position of the state instead of the one shown; this is defined and no memory is lost, and the state holds the sequence this describes.", "quantifier": "all lists of positions, all sequences of operations, all allocators, all previous memory contents", "why_tests_cant": "The library does not call insert and its test never removes after it; the hazard needs an insertion at the end followed by exactly one step and a removal.", "anchors": ["src/liblevenshtein/transducer/state_iterator.cpp:6-55", "src/liblevenshtein/transducer/state.cpp:58-71", "src/liblevenshtein/transducer/position.cpp:11-17"]}
{"id": "C114", "title": "A loop over a state inside another one", "statement": "A program iterates over a state and, any number of times, makes a second iterator at the position where the first one is, tells it of the first one and advances it, as unsubsume does. Whatever the two do then (++, remove, and insert at a position), no deleted position is used; the state holds the sequence that cursors on a list describe, the outer iterator skips what an inner one removed and meets what it inserted, and destroying the state gives back all memory. If the inner iterator was not told of the outer one and removes the position behind it, advancing the outer one is undefined behaviour.", "quantifier": "all lists of positions, all programs of outer and inner operations, all allocators, all previous memory contents", "why_tests_cant": "Removing under another iterator's feet goes wrong only for particular neighbourhoods, and a read of a deleted position usually goes unnoticed.", "anchors": ["src/liblevenshtein/transducer/state_iterator.cpp:6-55", "src/liblevenshtein/transducer/unsubsume.cpp:10-38"]}
{"id": "C115", "title": "FALSE: copies of states, positions and intersections can be destroyed like the originals", "statement": "FALSE: destroying a State, Position or Intersection and a copy of it is harmless. The compiler provides copy constructors and assignments that copy owning pointers. A copy of a state shows the same positions; once one of the two is destroyed, iterating over or destroying the other is undefined behaviour, unless the state is empty. Assigning a state to another one loses the positions of the latter in addition; assigning it to itself is harmless. Destroying a copy of a position and the state that holds the original, in either order, is undefined behaviour unless it is the last position; then all memory is given back. Assigning to a position of a state one that comes later in it takes the positions behind the former, up to and including the latter, out of the state, and they are lost; assigning one that comes earlier makes the list circular, and neither a loop over the state nor its destructor ends. Assigning one of another state makes the first state go on with what follows there, and what followed in the first is lost; destroying both states, in either order, is undefined behaviour unless the assigned position is the last of its state. Destroying an intersection and its copy, in either order, is undefined behaviour, even if its state is empty; the same holds after an assignment, which also loses the state of the object assigned to.", "quantifier": "all lists of positions, all positions in them, all allocators, all previous memory contents", "why_tests_cant": "The tests never copy these objects; a double delete is undefined behaviour that need not show.", "anchors": ["src/liblevenshtein/transducer/state.h:23-153", "src/liblevenshtein/transducer/state.cpp:22-24", "src/liblevenshtein/transducer/position.h:11-79", "src/liblevenshtein/transducer/position.cpp:11-13", "src/liblevenshtein/transducer/intersection.h:16-75", "src/liblevenshtein/transducer/intersection.cpp:13-15"]}
{"id": "C116", "title": "How the answers to different queries and dictionaries are related", "statement": "A dictionary with some of the terms of another one answers a query with those of the answers that it contains, in the same order; one with the terms of two others answers with the answers of both, each in its order. What STANDARD finds, the other algorithms find within the same maximum at no greater distance; what they find, STANDARD finds within twice the maximum at most at twice the distance. A term t is found from q at distance d exactly if q is found from t at distance d. Reversing query word and terms reverses the words in the answers, renaming characters injectively renames them there (in an order of its own), and putting the same beginning and ending around query word and terms puts it around the answers, in the same order. For STANDARD and MERGE_AND_SPLIT, a query word at distance e from another one finds what that one finds, with a maximum larger by e, at distances that differ by at most e; FALSE for TRANSPOSITION (ABC is found from AC within 1, but not from CA within 2).", "quantifier": "all dictionaries, query words (of a length as in C39), distances, algorithms, both signednesses of char", "why_tests_cant": "Relations between the results of two or three runs, for all dictionaries and words.", "anchors": ["src/liblevenshtein/transducer/transducer.cpp", "src/liblevenshtein/transducer/lazy_query.cpp"]}
{"id": "C117", "title": "Exact values of the distances", "statement": "For each distance, the distance of two concatenations is at most the sum of the distances of their parts; the distance of a word from one of its subsequences is the difference of their lengths; words of the same length are at most as far apart as the number of places where they differ. For StandardDistance and TranspositionDistance, the distance of a word from a shorter one is the difference of their lengths only if the latter is a subsequence of the former, and words without a common character are as far apart as the longer one is long. MergeAndSplitDistance is never more than a third of the two lengths together, rounded up, or the difference of the lengths if that is larger, and for words without a common character it is exactly that.", "quantifier": "all strings, after all call histories", "why_tests_cant": "Exact values for infinite families of pairs.", "anchors": ["src/liblevenshtein/distance/standard_distance.cpp", "src/liblevenshtein/distance/transposition_distance.cpp", "src/liblevenshtein/distance/merge_and_split_distance.cpp"]}
{"id": "C118", "title": "FALSE: objects are printed in a field of the width that was set", "statement": "operator<< for prefixes, intersections, nodes, dictionaries and pairs prints the text of the object in pieces. So a width that was set with std::setw applies to the first piece only: to the first letter of a prefix or intersection, and to the text before the first value otherwise; with std::left the padding is in the middle of the text. So the whole text is in a field of the width set only if the width is no larger than the first piece or there is no other. The text is as long as the larger of the width and the first piece, plus the rest. Printing an empty prefix or intersection prints nothing and leaves the width for what is printed next. Without a width the text is that of C79, C53 and C18, except that the size of a dictionary is printed as the stream prints numbers. If the stream takes only so many bytes, exactly that beginning of the text is printed, the stream has failed afterwards exactly if that is not all, and nothing is printed from then on; in a stream that had failed before nothing changes.", "quantifier": "all objects in memory, all streams: widths, fill characters, adjustments, ways to print numbers and pointers, room in the buffer", "why_tests_cant": "The texts are tested with fresh streams only, if at all.", "anchors": ["src/liblevenshtein/collection/prefix.cpp:34-45", "src/liblevenshtein/transducer/intersection.cpp:25-37", "src/liblevenshtein/collection/dawg_node.cpp:77-89", "src/liblevenshtein/collection/dawg.cpp:67-70", "src/liblevenshtein/distance/symmetric_pair.cpp:23-28"]}
{"id": "C119", "title": "The demo program does not notice that its output is lost", "statement": "If std::cout takes only k more bytes (a full disk), or none because it failed before (a closed descriptor), the demo program prints the first k bytes of what it would have printed, respectively nothing. Everything else is the same as if all had been printed: whether it ends, its exit code (0 after a conversation of which nothing was printed), the text on std::cerr, the files it leaves (the dictionary is saved) and the memory it frees. In particular a first run prints the first k bytes of the configuration and the right answers.", "quantifier": "all arguments, all inputs, all files, all k, all streams without a width set", "why_tests_cant": "The demo program is not tested.", "anchors": ["example/src/main.cpp:23-120", "example/src/command_line.cpp:45-101", "example/src/command_line.cpp:133-149"]}
{"id": "C120", "title": "Printing to a stream that throws", "statement": "If exceptions are enabled in a stream (badbit), operator<< for prefixes, intersections, nodes, dictionaries and pairs lets the exception out of the insertion that fails: it throws exactly if there is something to print and the stream had failed before or does not take all of the text; the stream has taken exactly the text that it takes without exceptions, the longest beginning for which there is room. If it does not throw, text and settings are as without exceptions. Printing an empty prefix or intersection never throws, not even to a stream that has failed.", "quantifier": "all objects in memory, all streams: widths, fill characters, adjustments, ways to print numbers and pointers, room in the buffer, failed before or not", "why_tests_cant": "No test enables exceptions in a stream.", "anchors": ["src/liblevenshtein/collection/prefix.cpp:34-45", "src/liblevenshtein/transducer/intersection.cpp:25-37", "src/liblevenshtein/collection/dawg_node.cpp:77-89", "src/liblevenshtein/collection/dawg.cpp:67-70", "src/liblevenshtein/distance/symmetric_pair.cpp:23-28"]}
