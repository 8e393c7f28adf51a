{
 "C04": {
  "note": "The documented claim is false; the negation is proved on the witness CA/ABC. The partial theorems are what holds: between the least number of operations and 3/2 of it; the factor is sharp."
 },
 "C08": {
  "note": "The documented triangle inequality is false; the negation is proved on CA/AC/ABC. The partial theorem has the factor 3/2, which is sharp."
 },
 "C12": {
  "note": "Interleaving semantics with the shared mutex; table accesses inside the lock are atomic steps, justified by the race-freedom theorem."
 },
 "C13": {
  "note": "Bound on table accesses of one call for arbitrary answers, and finiteness of every execution of any number of threads."
 },
 "C17": {
  "note": "size() is proved to be the length of the input; it is the number of terms exactly when none is repeated; the unconditional claim is refuted."
 },
 "C26": {
  "note": "The claim of safety is refuted: every non-empty term not smaller than the last is undefined behaviour. The partial theorem is what holds."
 },
 "C39": {
  "note": "Proved with a copy of the model in which every size_t operation is checked: the checked query succeeds for every max_distance and yields what the unchecked one does."
 },
 "C47": {
  "note": "On lists, and in memory: the duplicates are freed."
 },
 "C48": {
  "note": "The documented claim is false; its negation is proved."
 },
 "C51": {
  "note": "False in general; the partial theorem is what holds."
 },
 "C59": {
  "note": "Negation proved on a witness; c59_add_after_finish_partial says what holds."
 },
 "C31": {
  "note": "The claim is refuted (empty message, unlisted sources, repeated edges). The partial theorem covers messages that list all nodes used, repeat no edge and have no cycle."
 },
 "C60": {
  "note": "Both defects are proved for all messages of the kind."
 },
 "C27": {
  "note": "In the same process (both dictionaries in one memory), for built dictionaries, and across platforms with different signedness of char."
 },
 "C28": {
  "note": "Read into any memory on a platform with the same signedness of char; with the other signedness the order differs (an example shows it)."
 },
 "C42": {
  "note": "Pointer-level model: states and positions of all queries in one memory, any allocator that hands out free addresses; the dictionary is a read-only parameter."
 },
 "C52": {
  "note": "Programs of any length on a state in memory against a specification on sequences; iterators against a cursor. Insertion with an iterator that is at no position is outside the documented conventions; what it does is proved separately."
 },
 "C61": {
  "note": "Bytes of proto3 messages as the format prescribes them; the protobuf library itself is assumed to follow it."
 },
 "C62": {
  "note": "The claim is refuted on a witness; the partial theorem classifies all cuts."
 },
 "C65": {
  "note": "False for TRANSPOSITION (negation proved on ABC/CA); the partial theorem says which terms are certainly found."
 },
 "C67": {
  "note": "The claim is refuted: an unterminated last line, an empty serialization file. The partial theorem says for which inputs the program ends."
 },
 "C55": {
  "note": "The order of destruction is arbitrary; the limits are theorems too. The theorem on a destroyed transducer assumes that the address is not handed out again; an example shows the wrong answer that may come otherwise."
 },
 "C56": {
  "note": "Undefined behaviour is proved for every object of the kind named, not on a witness."
 },
 "C57": {
  "note": "The claim across dictionaries is refuted; within one dictionary equality is characterised."
 },
 "C68": {
  "note": "Composition of C55, C33 and the construction theorems; the specification is the edit distance (IsMinCost) and membership in the list of terms."
 },
 "C69": {
  "note": "Accesses to positions, states, intersections and nodes interleave; containers and members of a LazyQuery belong to its thread. Sequential consistency, justified by the absence of races."
 },
 "C66": {
  "note": "The values of --max-distance are specified by a relation on texts that does not mention the parser."
 },
 "C70": {
  "note": "The specification of the texts is by literal strings; the theorems on reading them back do not depend on the wording alone."
 },
 "C90": {
  "note": "Which terms an exception costs is specified by prefixes (Misses), independently of queue and states. That trying again finds everything is refuted on a witness (c90_loses)."
 },
 "C91": {
  "note": "Which words are left is specified by Progress, AddOut and FinishOut (words and prefixes only). That trying a word again is safe is refuted for all dictionaries and words (c91_retry), not only on a witness."
 },
 "C94": {
  "note": "When a call throws and what it loses is specified by numbers (Strikes, lost), independently of the run. That a save that returned true is complete is refuted (c94_true_incomplete); c94_true_partial is what holds."
 }
}