{
 "C03": "False of the code: a length prefix near 2^63 makes DecodeVarchar panic. Refuted; exact panic condition proved.",
 "C04": "False of the code: DecodeUvarint64 wrongly requires the value itself many bytes after the integer. Refuted; exact acceptance condition proved.",
 "C05": "False of the code: same defect as C04 for positive values. Refuted; exact condition proved.",
 "C10": "False of the code: Buf() of a decoded key returns the whole input. Refuted; exact value proved.",
 "C11": "False of the code: Key.Add does not reset the encoded flag. Refuted; exact history characterisation proved.",
 "C13": "False of the code: comparison with a strict prefix panics. Refuted; exact panic condition, lexicographic otherwise.",
 "C15": "False of the code: XOR of sub key hashes. Refuted; parity characterisation proved.",
 "C17": "False of the code: comparison with a strict prefix panics. Refuted; exact panic condition, lexicographic otherwise.",
 "C82": "False of the code: keys with an empty sub key panic on Copy. Refuted; exact condition proved.",
 "C84": "False of the code: truncation at a sub key boundary can be accepted. Refuted; exact condition proved.",
 "C22": "False of the code: a start bound below the smallest key yields nothing, above it is ignored. Refuted; exact output and exact correctness condition proved.",
 "C25": "False of the code: byte slice comparison panics on strict prefixes, and a nil key makes Remove corrupt the map. Refuted; proved for prefix-free and non-nil key sets, and with nil among the keys for all histories that do not remove the smallest other key while nil is in the map (C25_nil_partial). Exact for non-nil keys that are not in the map: a call panics if and only if a longer key in the map begins with it (C25_absent_partial), and the same with nil among the keys (C25_nil_absent_partial); for keys in the map this does not follow from the contents (C25_history_refuted).",
 "C26": "False of the code: Next/Peek on an exhausted sorted iterator panic on a type assertion. Refuted; HasNext false forever and exact results proved.",
 "C30": "False of the code: the hash iterator never yields an entry. Refuted; proved to yield nothing in every history, and to be correct exactly for the empty map. The same in programs with several maps and iterators.",
 "C33": "False of the code: hashing an integer slice panics unless cap >= width*len, hashing a slice of hashables panics on any non-nil element. Refuted; exact panic conditions and hash input proved, byte slices proved lawful.",
 "C37": "Refuted: unequal keys whose sub keys are permutations of each other hash alike under every seed, so MPHBuild never returns; and so do some keys of one sub key (C37_single_refuted). Proved: exact condition for up to seven keys (C37_few_keys_partial); for any number of keys a sufficient condition (C37_rich_partial) and two necessary ones (C37_buckets_partial, C37_necessary_partial), all in terms of the hash family; the 2^32-attempt bound; termination for at most one key. For the Murmur hashes of the code: termination for two keys equal up to the last one to three bytes of one sub key, so for any two different keys of one sub key of at most three bytes (C37_two_keys_partial, C37_short_partial). Missing: which other lists of keys satisfy the conditions for the Murmur family.",
 "C38": "Refuted in key mode: keys decoded from longer buffers and keys with a nil sub key do not survive. Proved: hash mode in full; key mode for keys in the states SoundKey, and exactly for all keys in any state: a table survives if and only if the bytes of its keys, one after the other and followed by what comes behind, read as the sub keys of the keys (C38_exact_partial, layout as in Spec.KeyWire).",
 "C39": "Refuted in key mode for two or more keys (each loaded key re-encodes the whole rest of the buffer). Proved: hash mode for every loadable byte string; exact characterisation in key mode.",
 "C41": "Refuted: Lookup on a table built from no keys always panics (proved for every probe).",
 "C58": "False of the code: raft LT is true as soon as any component is less, and LE is always true. Refuted; GT/GE/EQ/NE proved lexicographic, LT and LE characterised exactly.",
 "C59": "False of the code: Buf() writes the term over the magic byte. Refuted, and proved that no raft time at all parses back to itself.",
 "C85": "False of the code: the empty buffer panics while building the error message. Refuted; proved that this is the only panic.",
 "C70": "False of the code: the remainder of a negative random number is negative. Refuted; exact condition proved.",
 "C75": "False of the code: files holding fewer than 4 bytes (e.g. empty files), and private key files with fewer than 12 data bytes, panic. Refuted; exact panic conditions proved.",
 "C76": "False of the code: only X is stored and one of the two square roots is returned. Refuted on P-256; proved which root is returned (P-256 prime proved prime by Lucas certificates).",
 "C86": "False of the code: identifiers are not checked, \"a\" and \"./a\" share files. Refuted; proved for identifiers that are proper file names. C86_exact_partial: for all identifiers, keys of different classes never share a file, and two identifiers of a class do exactly if they lead to the same directory; C86_staying_partial: for identifiers that do not lead out of the class, exactly if they are the same without detours.",
 "C88": "False of the code: the private key file is truncated in place. Refuted; the possible states are characterised exactly.",
 "C89": "False of the code: only the first 16 bytes count. Refuted; exact condition proved.",
 "C72": {
  "note": "AES-GCM is a parameter with the law open(seal(x)) = x.",
  "status": "proved"
 },
 "C55": "False of the code: parts that are nil are left out of the encoding but the decoder always expects all three. Refuted; exact condition proved.",
 "C90": "False of the code: an empty buffer and a huge announced length panic. Refuted; exact panic condition proved (C90_panics_iff_partial), and safety for buffers that announce no length beyond int64.",
 "C42": {
  "note": "Byte strings are non-nil slices; a nil slice writes nothing (C42_nil).",
  "status": "proved"
 },
 "C43": "False of the code: a primitive holding a nil slice writes nothing inside an array. Refuted; a value round trips iff it contains no nil primitive.",
 "C45": "False of the code: a malformed element is an error once and a nil pointer (or a panic) afterwards. Refuted; independence holds iff all announced elements are well formed, and the behaviour after a failure is given exactly.",
 "C47": {
  "note": "Refuted for lists of records: a list whose record has no key round trips as a value, but copying it after decoding panics. Exactly (C47_exact_partial, for keys that can occur): the copy is made and encoded to the same bytes iff no list with records is in the arrays of the value.",
  "status": "partial"
 },
 "C48": "False of the code: 65536 elements wrap Size() to 0 and out of range DeleteAt panics. Refuted; proved for at most 65535 elements; encoded flag proved for all histories.",
 "C50": "False of the code: Record.Encode leaves out absent parts and the key decoder swallows the rest of the buffer. Refuted; proved that no encoded record (of a key that can occur) ever decodes, whatever bytes follow it (C50_never_decodes_before_partial), and that every decoded record has an empty key.",
 "C51": "False of the code: a record whose magic byte lacks key, value or scheme panics. Refuted; exact panic condition proved, and safety when all three are announced and the key decoder does not panic.",
 "C78": "False of the code: GetChild asserts the type of a nil child, so Get and Set of any non-empty key panic. Refuted; behaviour of every history proved exactly, with Set/Get of the empty key correct.",
 "C79": "False of the code: the root has no parent and TrieNode.Encode dereferences it. Refuted; proved that Encode panics on every trie.",
 "C80": "False of the code: FullKey adds the nil key of the root, which panics. Refuted; proved that every iterator constructor panics on every trie.",
 "C92": "False of the code: HasNext is inverted. Refuted; proved that it is true exactly if nothing is left, for every iterator.",
 "C93": "False of the code: Copy decodes the never written buffer. Refuted; proved that every copy is empty.",
 "C95": "Refuted: a file consisting of the four version bytes panics in NewMappedConsensusID, and missing offsets panic because the length test does not return. Proved: the exact set of files on which loading panics.",
 "C96": "Refuted by a file whose domain length byte is changed so that another header with a matching checksum is found inside the domain. Proved: a change of up to four adjacent bytes of the header, or of the lookup table and offsets, or of their checksums, is detected as long as the lengths of the parts stay the same. The same for any two wrong bits before the records, in parts of less than 2^29 bytes.",
 "C98": "Refuted: the checksum is stored most significant byte first, so a change of the last two data bytes can be compensated by the first two checksum bytes. Exact: a change of up to four adjacent bytes goes undetected if and only if it is at that position and the bytes are changed by the exclusive or with 61 d8 f4 ee.",
 "C102": "Refuted: the copy of a decoded record panics if its key count is a long zero varint reaching past the record, and keys with an empty sub key panic too. Proved: exactly which values and records can be copied, and that their copies have the same contents and encoding.",
 "C103": "False of the code: the key of a decoded record is lost. Refuted; proved that the copy never encodes to the bytes of the record, and what it contains for records of primitives.",
 "C105": "Refuted: a constructed value array or record list without elements also says it is a primitive. Proved: these are the only exceptions, and how the answers change by encoding and decoding.",
 "C108": "Refuted: appending to an element of an encoded array leaves the array encoded with its old bytes. Proved: the bytes are always the encoding of what the object contained at an earlier moment, they stay current as long as neither the object nor one nested in it is changed, and an object that is changed itself is no longer encoded.",
 "C110": "Refuted: a primitive of one byte takes three bytes, estimated are two. Proved: the exact error for primitives, that an array's estimate is exact right after Encode, the estimate after appending, bounds for arrays of primitives, and that records can be overestimated.",
 "C111": "Refuted: a malformed record is an error the first time and a nil pointer afterwards. Proved: well-formed records are always returned, as the same object with the right value and scheme; the exact results for malformed ones; independence of the history exactly if decoding gives an error at no record.",
 "C112": "Refuted: every well-formed node below the root crashes the loader (its map of children is nil). Proved: exactly which bytes crash it, and that the rest that does not load is an error.",
 "C113": "Refuted: a key with an empty sub key anywhere makes CopyConstruct panic, and a decoded part that is not well formed makes it fail. Proved: exactly when the copy is made, that nothing in it is decoded, that it says what the value says, and that it is encoded like any other value that says the same.",
 "C115": "Refuted: the copy of an array is estimated at one byte whatever it contains. Proved: the exact estimate of a copy for every kind of object.",
 "C117": "Refuted: nothing can be deleted from an array of 65536 elements. Proved: DeleteAt panics exactly if the index is not below the size modulo 65536; otherwise exactly the element at the index is removed.",
 "C118": "Refuted: an array that grows after it was appended to another one. Proved: the exact estimate of lists, records and value arrays after any history, as sum over the calls of the estimates at the time of each call; that of a value array is set to the number of its bytes whenever it is encoded.",
 "C120": "Model of the element caches on a heap; the specification reads the bytes without caches. Decoded records always have an empty key (C50), so the key of a copied record is empty.",
 "C121": "Records inside are encoded without their (empty) key, so they cannot be decoded again (C50, C103); the contents shown are those at index paths through arrays.",
 "C122": "One model for the eight integer types, whose code is the same; elements are integers, so signed and unsigned order are both the order of the numbers.",
 "C123": "Refuted: a slice compared with a proper prefix of itself panics, and so does a slice of comparables with elements of different types. Proved: exactly when Compare returns -1, 0, 1 or panics, for all slices without anything nil; and what nil slices do (a nil slice is below itself, and a nil slice of comparables is Equal to an empty one but below it).",
 "C124": "Proved for Copy (with the same outcome, also for errors and panics) and CopyConstruct. The objects are modelled as slices into memory, and the decoders are proved to give the windows that the models on byte strings describe.",
 "C125": "Refuted: a copied key uses the same sub key bytes. Proved: exactly which assignments change a copy. Copy keeps the buffer of a decoded key and the sub keys of a constructed one, CopyConstruct keeps the sub keys, records share their keys in this way and nothing else (decoded records share nothing), schemes share everything.",
 "C126": "Refuted: sub key bytes changed after Encode leave Buf() as it was. Proved: Buf() is never changed by assignments to bytes that existed before, and is the encoding of the sub keys exactly if these show the same bytes as when they were encoded.",
 "C127": "Refuted: a sub key is a window into the buffer. Proved: exactly which bytes of the buffer matter (for keys and records also all those behind, for values only their own bytes, for schemes the bytes of the parts).",
 "C130": "Refuted: after adding a key an iterator returns another key twice; removing each key once it was returned leaves out keys. Proved: iteration is exact as long as the set of keys of the map does not change (values may be overwritten, absent keys removed, other maps changed), values are those at the time of the call, and the loop that overwrites every value visits every key.",
 "C131": "False as stated: Put links the new node and Remove unlinks it before the table is resized, and a panic of HashUint32 during the resize leaves that done (C131_refuted, an eighth key). Proved for panics at all points: a call that panics has taken effect completely or not at all, the former only if it added or removed a key, and the map remains a finite map with the right size (C131_all_or_nothing_partial); a call panics only if a method of a key does (C131_only_keys_panic); if HashUint32 of a key panics always or never, a call that panics has no effect (C131_fixed_hash_partial). If only HashUint32 panics, and always for the same keys, the histories are characterised exactly: calls with such a key panic and do nothing, all others return and do what they do on a finite map (C131_bad_keys).",
 "C132": "The library is modelled by what it computes on P-256, with the elliptic curve group of Mathlib. That n is prime and the order of the base point is proved.",
 "C133": "Refuted with the private key n - 1: only X is stored, and for keys whose Y is not a square modulo p the negative point is loaded. Proved: the loaded key accepts all signatures if Y is a square; otherwise, for each random number, it refuses the signatures of all hashes, up to at most three values modulo n.",
 "C134": "Refuted: n - s is accepted exactly if s is. Proved for every point of the curve as public key: at most four values of s are accepted.",
 "C135": "Refuted: bytes after the 32nd are ignored. Proved: the result depends on the first 32 bytes as a number modulo n only, and with a key and a signature at most four of these numbers are accepted.",
 "C136": "Nine different random numbers suffice.",
 "C137": "Refuted: the private keys d and n - d have the same file. Proved: these are the only ones.",
 "C138": "Refuted: a file with X = 1 loads, with a nil Y. Proved: checking the numbers of a well formed signature panics exactly if X belongs to no point of the curve.",
 "C139": "Refuted for aliases that mention the new identifier: the alias \"<id>/node_id\" replaces the key file by a link (C139_refuted). C139_usable_partial: complete for aliases that are a single name. For any alias that does not mention the new identifier: the key loads under its identifier (C139_id_partial), and under the alias exactly if the directory of the alias is reached with at most 39 links (C139_alias_partial; C139_links_refuted: with 40 links the run succeeds and loading fails). Hypotheses on the prior file system: every entry is in a directory, the directory of the class is reached without links as far as it exists, nothing is in the place of the identifier and no link mentions it.",
 "C140": "Refuted: the alias \"aa/node_id\" with -force removes the private key of \"aa\". Proved for aliases that are a single name, in every state of every run. C140_any_alias_partial and C140_one_partial: with any alias at most one place matters, and a run damages at most one of the stored key pairs.",
 "C142": "Refuted: the alias is removed before the new link is made. Proved: what each state can have in its place, and the end of each run.",
 "C143": "Refuted: an alias that leads nowhere is not seen to exist, is not removed, and then is in the way. Proved: the exact condition, and that the key pair is stored in any case.",
 "C144": "Refuted: the key generator pads or cuts the passphrase to 16 bytes, loading does not. Proved: 16 bytes suffice; all other lengths fail, for 24 and 32 under the hypothesis that the cipher notices a wrong key.",
 "C145": "Refuted: the prompt accepts lengths from 8, AES only 16, 24 and 32. Proved: the exact lengths; no file changes otherwise; round trip.",
 "C146": "Refuted: a load factor that is not a number passes both comparisons of the range check, and the map never grows; proved for all numbers and infinities, and what happens with NaN as load factor or multiplier. Assumption on math.Pow: relative error at most 2^-40 for second and fourth powers of numbers between 1 and 5.",
 "C147": "Assumption on math.Pow as for C146. The second part also holds for a load factor that is not a number. A multiplier that is not a number is left out: int(NaN) is left open by the language.",
 "C148": "Assumption on math.Pow as for C146; none on the value of int(NaN).",
 "C149": "Proved for arbitrary key operations, different ones in each call, including iterators with a start key.",
 "C150": "The second half is refuted: Remove copies the entry of another node into the node found, so that an entry that was returned already and removed since is returned again. The first half is proved, for arbitrary key operations.",
 "C151": "Proved for arbitrary key operations; the bound is the same for all continuations that leave the map alone. The loop theorem also fixes that it is enough if comparisons do not panic.",
 "C152": "Proved on the model of the hash function (each step is a bijection of the state).",
 "C153": "Proved for all seeds.",
 "C154": "Refuted: for every byte string of at least 8n bytes there are 2^n of the same length with the same hash under every seed (a difference in one word is cancelled by one in the next), and keys of two equal sub keys all have hash 0. Proved what follows for a hash map: with such keys a lookup compares with every key, for every seed, load factor and multiplier.",
 "C155": "Proved with the real hash function for every seed. C155_default has the exact resizing of default maps and up to 2^30 calls; beyond that the number of buckets could reach 2^32 (C28).",
 "C156": "Refuted: Compare panics if the argument is shorter (C13), so a call panics if its key is continued by a key it meets in the tree. Proved for all histories: a call that panics has no effect, panics only because of a key in the map that continues its own, and all others return what the finite map returns; iteration over the whole map never panics and is in lexicographic order, whatever happened before; no call panics for keys of a fixed format (as many sub keys of the same lengths).",
 "C157": "Refuted for Add: the entry becomes unreachable under the old and the new sub keys. Proved for all methods that keep the sub keys, that is, all others.",
 "C158": "Proved for all sequences of calls; the system never maps a file over a live mapping and unmapping that fails leaves the mapping in place.",
 "C159": "Proved: Close can be repeated at any time, a failed Close reports the error and leaves the table open. Refuted: looking at an attribute of a closed table kills the process, or shows the bytes of another file mapped at the same place. Both described exactly.",
 "C160": "Refuted: the file handle is never closed by the code (exactly one stays open per file opened; the garbage collector's finalizer is not modelled). Mappings: released by Close and by failing loads; a load that panics before it has noted an error (exactly characterised) leaves its mapping for good. The panic on missing record offsets releases it, because err was set before.",
 "C161": "Proved for all inputs shorter than 2^63 bytes. Counts the slices whose length comes from the input, on a 64-bit platform; the decoders with counting are proved equal to the decoders of the other properties.",
 "C162": "Refuted: a lookup table of 21 bytes (or a file of 144) requests 64 GiB, because the number of verification keys is not checked; if memory suffices, the table even loads, with keys that are not in the input. Exact: only the announced number of keys exceeds the bound; tables verified by hash need no more than their size, and the library's own tables 40 times their size.",
 "C163": "Counts calls of Equal/Compare and links followed; the code between two counted events has no loop. The counting functions are proved equal to the functions of the other properties.",
 "C164": "Amortised: the stack of the iterator is the potential. Lawful, total key order for iterators with bounds; none needed for Iterator(). The map is not changed during the iteration (see C149-C151 for changed maps).",
 "C165": "The full claim is refuted (ChildLookup): GetChild of a missing key is a failed type assertion and panics. Proved: all histories refine finite maps; lookups of present keys succeed unless the key of a sibling strictly continues the key (byte comparison of such keys fails, C17); which calls can fail. For keys without child PutChild and RemoveChild panic exactly if the key of another child strictly continues the key (C165_absent_partial).",
 "C166": "The full claim is refuted (PutLinks): parent and node key are those given at creation, in every history.",
 "C167": "The full claim is refuted (FullKeys): the walk reaches the root, whose node key is nil, and NewKey rejects it, so FullKey panics for every node.",
 "C168": "The full claim is refuted (NodeCopyIndependent): copies share the child objects. Proved: apart from that the copy keeps what it was made with whatever is done to other nodes, and copying changes nothing.",
 "C169": "The full claim is refuted (NodeRoundTrip): the loader expects a mark before the key. Proved: which nodes can be encoded, and that the bytes determine key, offset, value and number of children.",
 "C170": "The full claim is refuted (NodeBufCurrent): Buf panics before the first Encode and is unchanged from one Encode of the node to the next.",
 "C171": "The full claim is refuted (NodeEstEnough) by a parent at offset 2^28. Proved: exactly when the estimate is enough; it is for keys below 128 bytes, offsets below 2^21 and fewer than 128 children.",
 "C172": "The full claim is refuted (NodeErrorsReported): the error is dropped for all inputs.",
 "C173": "The full claim is refuted (LoadedNodeReadable): only a node whose first number is 0 can be read, as having no key, value or children.",
 "C174": "For tries of nodes that implement ITrieNode correctly (children in a sorted map, full keys available); those of this package do not (C165, C167). What HasNext answers is the subject of C92; the theorem gives its answers exactly.",
 "C175": "The full claim is refuted (StartsAtDescendants): every key on the way is looked up among the children of the root, not of the node before. Proved: exactly which nodes can be started at; children of the root can.",
 "C176": "The full claim is refuted (RangeVisitsAll). Proved: exactly which nodes are visited before the call that does not return (the iterator does not come back from the children of a node); also for ends whose first key is missing; a root without children is returned forever.",
 "C177": "The full claim is refuted (RangeVisitsUpTo). Proved, for ends in the trie: the iteration is correct if and only if no node before the end is deeper than the end; otherwise it never ends. For ends of which only a beginning is in the trie: correct if and only if, in addition, the last node found has no children. Ends whose first key is missing are ignored (C176).",
 "C178": "The full claim is refuted (RangeVisitsBetween). Proved exactly: for starts in the trie without end, which nodes are visited before the call that does not return, and when the first call panics; the same for starts of which only a beginning (or nothing) is in the trie; for starts and ends in the trie, the iteration is correct if and only if the start is reached through first children with keys that do not grow, the start has one key or another first key than the end, and no node in the range is deeper than the end. For every start and every end of which at least the first key is in the trie (other ends are ignored), exactly when the iteration is correct (C178_exact_partial; every path has the longest beginning in the trie it speaks of, reaches_exists).",
 "C179": "The full claim is refuted (OneRoundEach). Proved exactly: the rounds of any history of accesses; reading n elements in order takes n(n+1)/2 rounds, reading the last first makes all further reads free; a list meets the claim if and only if it has at most one element; any single read takes at most as many rounds as the place of its element.",
 "C180": "The full claim is refuted (DecodedOnce): a record whose decoding panics is decoded again on each read. Exactly (C180_iff_partial): a value is decoded at most once per element in all histories unless it is a list of records and decoding panics at one of them. For all arrays of values (C180_values_partial); for record lists up to one more for each read that panics (C180_records_partial).",
 "C183": "The full claim is refuted (TextIdentifies): the text of a key changes when it is encoded, and a nil sub key has the text of an empty one. Proved: keys with the same text have the same bytes in their sub keys, and are equal if no sub key is nil.",
 "C184": "The full claim is refuted (PrintContract). Proved for sorted maps and hash maps in any state; for keys, exactly: the text has one return character more than there are sub keys except for the empty key, and no key is ever printed with the indent; tries are in C185.",
 "C185": "The full claim is refuted (PrintsNodes), for every trie (C185_never_partial): the format is wrong. Proved exactly: what is printed is a line `%s` and then all nodes on one line after a complaint about the arguments; a trie without root panics, and so does every trie loaded from bytes. C185_key_partial: the text of each node shows its key in hexadecimal digits.",
 "C187": "The full claim is refuted (CopyHasContent): a copy made before Decode has no domain, tablet or buckets, without an error, and the estimate is 1. Proved exactly: empty before Decode, the content after a Decode that succeeded, and after one that failed the parts before the one that failed, with nil for the other buckets.",
 "C188": "The full claim is refuted (EqualIsEquivalence): a nil pointer is not equal to itself, and handed to an object of its type it makes Equal panic. Proved: for objects without nil pointers in them Equal returns and says whether types and contents are the same, so it is an equivalence there (C188_sound_partial), and what it does for nil pointers exactly (C188_nil_partial).",
 "C189": "The full claim is refuted (HashMapOfObjects): slices of wider integers reslice the bytes beyond the capacity unless it is large enough, and slices of objects with any element other than nil always panic (Implements of a nil type). Proved exactly: calls with such keys panic and change nothing, all others behave as on a finite map (C189_partial); which keys these are, and that equal keys have equal hashes (C189_hash_partial).",
 "C190": "The full claim is refuted (LogsAll): the second call of LCSetLoggerFileTmp sets the output to a nil file, and messages are lost without an error. Proved exactly: those messages are lost and all others are written where they are to go (C190_partial); all are if there is at most one such call that succeeds (C190_once).",
 "C191": "The full claim is refuted (KeepsPromises): a key says that it is not decoded. Proved exactly, for all types and sequences of calls (C191_partial): as promised, but that keys always say they are not decoded and return no error when encoded, and that a record whose count of sub keys does not end within its bytes returns an error when decoded again, and stays as it is. Values keep all promises (C191_values_partial). The same for schemes is C186.",
 "C192": "The claim about IsEncoded is refuted (RecordBytesCurrent): Add on the key of an encoded record leaves it encoded. Exactly (C192_partial, C192_encoded_iff_partial): a record is encoded if some Encode of it succeeded and none of its setters was called since; Buf is the encoding of its content then, which is that of its content now exactly if no sub key was added to its key since. The parts about Encode (C192_encode), other calls (C192_content, C192_est, C192_est_key) and copies (C192_copy) are proved in full; values and schemes are values here, sharing of them is C107-C118.",
 "C193": "Refuted for tables that verify by key (TablesAreFixed, TablesSaveWhatTheyAnswer): the table refers to the key objects. Exactly (C193_lookup_partial, C193_unchanged_iff): a key is found by the sub keys it had at the build as long as no sub key was added to the object; otherwise the answer is no. C193_yes: a yes always means that the key has the sub keys of the probe now. Tables that verify by hash are fixed (C193_hash_mode). Saved tables answer alike if no key has outdated bytes (C193_saved_partial; states as in C38).",
 "C194": "Refuted (TriesKeepPromises): Encode of a constructed trie always panics, and CopyConstruct of a loaded trie is always an error. Exactly, for all histories: C194_trie_partial (never encoded, Buf panics, copies are loaded tries without content) and C194_loaded_partial (a loaded trie never changes and answers every call as when it was loaded).",
 "C195": "For new schemes and copies of schemes with arbitrary parts; there is no other way to make one.",
 "C196": "Refuted (NodeCopyHarmless). Exactly: the copy of a node without content is harmless (C196_copy_partial); any other copy cannot be read, replaces the original among the known nodes and in its parent, and afterwards bytes of a node below the original make the loader panic (C196_blocks_partial).",
 "C197": "Refuted for the first sentence (ElementsFixed): elements are decoded at the first access, from the bytes that are in the buffer then. Exactly: C197_late_value_partial and C197_late_record_partial (nothing accessed before), C197_now_partial (in every state, the access of C45 and C111 on the bytes as they are), C197_outside_partial (no byte of the slice assigned). The other sentences hold for all programs: C197_kept, C197_tiles.",
 "C198": "Refuted for the first two sentences (TimesImmutable): the objects behind the pointers are shared with the program and with copies, and times and big integers can be assigned. Exactly: C198_exact_partial (pointers are kept, and show what was last assigned), C198_set, C198_shared_partial (Copy of a constructed record and CopyConstruct of any record share for good), C198_stale_partial (when the bytes of an encoded record are those of its content). The last sentence holds: C198_unassigned, C198_decoded, C198_stale_partial, C198_marked.",
 "C199": "Refuted: in Go ^ is the exclusive or, so the bounds 2^16 and 2^32-1 are 18 and 33. Exactly: the seed is one of 18 to 32 (C199_seeds_partial), equally likely up to one output (C199_chance_partial). So a wrong key is accepted never or by one table in fifteen at least (C199_fifteenth_partial), and for every key of one sub key there are fifteen short keys, one of which the table for this key accepts whatever the random source delivers (C199_forged_partial).",
 "C200": "Refuted: reading fills the elements without a lock, so two readers race, and two calls for the same element may give different objects. Exactly: calls for well formed elements can get into a race if and only if two of them, on the same object, ask for elements never read before (C200_race_iff_partial); after all were read once there is no race, nothing is written, and every call gives what it gives alone (C200_warm). If single accesses are atomic, then in every interleaving a call that ends gives an object that shows the encoded element, or an error (C200_content_partial), and it ends after 3 idx + 5 of its own steps whatever the others do (C200_ends). Without others the steps are the modelled single call (C200_alone).",
 "C201": "Refuted: a key of another type than one in the map, or one that ends where one in the map goes on, panics. For all keys and histories: a call returns what the finite map returns, or it panics without any effect, and only if a key of the map is of another type where they first differ or goes on where the call's key ends; all keys in a map are in order and of types that match (C201_blocked_partial). One key of another type in the map, wherever it is in the tree, makes every call panic (C201_types_partial). If no key used blocks another one, in particular if all have the same shape, the map is a finite map (C201_unblocked_partial, C201_same_shape_partial).",
 "C202": "Refuted: overflowing lengths panic, and strings missing at the end of the buffer are read as empty ones. Exactly: which bytes decode to which key or scheme and how many are consumed (C202_key_ok_iff_partial, C202_scheme_ok_iff_partial), and which panic (C202_key_panics_iff_partial, C90_panics_iff_partial); the others are errors. The layout is specified without the decoder (Spec.KeyWire).",
 "C203": "Refuted: asking about an array panics, and nil functions and unsafe pointers are taken for something. Exactly: these are the only exceptions (C203_exact_partial).",
 "C204": "One model for the twenty functions, which have the same text up to the type and the comparison.",
 "C205": "Refuted: there are data races, for any object that is not encoded yet (C205_race_same_partial), though only between calls, one of them of Encode, whose objects share a part made by the program (C205_race_partial). All the rest holds for every interleaving of single accesses to fields, which is what Go promises without races and the least that can go wrong with them. Size estimates and the magic byte of a primitive are left out.",
 "C206": "Refuted: Put tests for nothing at all only. A nil pointer put into an empty map is accepted, and after it no call returns (C206_empty_partial); beside keys of other types it is accepted as the first entry, cannot be found or removed (C206_other_type_partial), and makes the removal of another key panic after that key was lost (C206_refuted). Beside keys of its own type it is refused (C206_same_type_partial), as is nothing at all (C206_nothing_partial).",
 "C207": "Refuted: a nil pointer of the same kind on either side is dereferenced. C207_exact_partial says for all pairs of variables whether there is an answer, an error or a panic.",
 "C208": "The bound 1.38 n + 1 is not the best one for every n; C208_extremes gives the exact maximum for each length.",
 "C209": "Refuted for signed integers and times before 1970: negative numbers are greater than all others. C209_signed_partial is exact for all pairs; C209_unsigned, C209_times_partial and C209_map_partial say where the claim holds.",
 "C210": "Holds for byte strings, values and hash-mode tables. Refuted for keys and (C217) for tables verified by key. For keys: what is left of the last key may be read as a key with empty sub keys; C210_keys_partial is exact about what is read. Values that are nil primitives write nothing and are left out. The reading program is the specification ReadsLog; For tables verified by key C210_key_tables_partial is exact in the same way, with the table of C217 as the last one.",
 "C211": "Refuted: empty values of all kinds, nil elements at different places and signatures with opposite signs are written alike; and a key decoded from a buffer with something behind it is written with what is behind it, so that two records with equal keys and different values have the same bytes. C211_values_partial and C211_records_partial are exact (iff) for all values and records without decoded keys; C211_prefix_free covers all.",
 "C212": "Holds for the hashable slices of the repository. Keys are the same if their types and contents are (specification sameKey); up to 2^30 calls, default load factor and multiplier.",
 "C213": "Holds, for comparison functions whose outcome depends only on their arguments and trees that are not changed meanwhile.",
 "C214": "Refuted: HasNext panics at the end if the next key continues the end (C214_refuted); whether it does can depend on removed entries (C214_order_refuted). Proved: all results of all calls, where HasNext at the end panics if and only if Get of the end would (C214_exact_partial); conditions on the keys for this (C214_range_partial); the claim holds if no key continues the end (C214_upTo_partial).",
 "C215": "Refuted: HasNext panics at the end if the next key continues the end. Proved: all other results are right; the panic occurs if and only if Get of the end panics (C215_exact_partial), so only if a key continues the end, and if the end itself is not a key exactly then (C215_upTo_partial).",
 "C216": "Refuted: a nil pointer as end makes the iterator empty. Proved exactly: bounds that are nothing at all are no bounds, in any tree; a nil pointer as start makes the construction or every call panic; a nil pointer as end makes the iterator empty, or the construction panic if there is a start that is not a nil slice.",
 "C217": "Refuted: a table cut between two keys, or directly after the number of keys, is read without an error, as the missing bytes are read as empty keys. Proved exactly: what a cut encoding is read as if it is not refused (C217_cut_partial); cuts between keys are never refused (C217_between_partial).",
 "C218": "The order is refuted: key b is greater than key ac but its encoding is smaller. Proved exactly: comparing encodings never panics and orders by number of sub keys, then at the first different sub key by length (small numbers first, two byte numbers by their low bits), then by content (C218_order_partial); hence like the keys if they have one shape (C218_same_shape_partial). The map part is proved in full with that order (C218_map).",
 "C224": "Refuted: of the 256 outcomes, RandInt8Range(10, 20) gives 10 for 25 of them and 13 for 13. Proved exactly: how many outcomes give each value of the range, about twice as many for the least value as for each other one (C224_share_partial, for ranges smaller than half of the type), how many outcomes give a result outside the range (C224_outside_partial), and that these are at least a quarter (C224_quarter_partial).",
 "C225": "Refuted: the alias \"../../passwd\" with -force replaces /etc/passwd by a link (C225_refuted). Proved without alias or with one that is a single name: every place changed in any state of any run, and what is there (C225_places_partial, C225_stays_partial). C225_any_alias_partial: with any alias, at most one further place changes in a whole run, the one the path of the alias names after the key is saved. Missing: which other aliases are harmless. C225_usage and C225_usable_partial hold for all class names as stated.",
 "C226": "Refuted: the directory of the domain \"../transaction\" is the transaction log of the node (C226_refuted). Proved, as an equivalence, for nodes and domains whose names are proper (not empty, '.', '..', no '/'): C226_apart_partial; C226_conf_partial for the configuration file. Symbolic links are not considered.",
 "C227": "Refuted: a save that fails just after opening the private key file leaves a key that exists and whose loading panics (C227_refuted). Proved: after a successful save both keys exist and load (C227_saved_partial); if the public key exists the private one loads (C227_public_last_partial). Missing: which cut off files happen to load (a matter of checksums). The other parts hold as stated: C227_loads_exist, C227_pub_states, C227_pub_saved. Directories in place of key files are not modelled.",
 "C228": "Refuted for loaded records: the reserved bits are not looked at, so a record with magic 0xff loads, and a signature that is announced may be missing (C228_refuted). Proved instead: what the bits of a loaded record say, and that a signature that is announced and missing means too short a buffer (C228_loaded_partial). As stated for records made by the program (C228_made, before Encode the call panics instead of returning 0xff) and for primitive values, where nil data have magic 0 and no bytes (C228_primitive).",
 "C141": "Refuted: in a file system without keys the alias \"../../passwd\" leads nowhere before the directories are made, and then /etc/passwd is replaced without a question (C141_refuted). C141_consent_partial: aliases that are a single name. C141_any_alias_partial: any alias that does not mention the new identifier, if the directory of the class existed or the alias has no component \"..\": nothing that existed is changed in any state.",
 "C114": "C114_made covers every object: a copy that is made is a faithful one; contents that cannot be copied (see C102) make the call panic.",
 "C220": "C220_any_keys: any keys, encoded before, decoded or not; C220_key_mode gives the size of the keys for keys not encoded before.",
 "C35": "For tables with keys; on a table without keys every lookup panics (C41_empty_panics_partial).",
 "C36": "For tables with keys; on a table without keys every lookup panics (C41_empty_panics_partial).",
 "C07": "For buffers within the stated limit on their length (2^43 bytes).",
 "C229": "False: a node with content never counts as decoded, so it panics on all questions, also about the children that were loaded below it. C229_nodes_partial is exact: for all histories each node has the children the specification says, nodes without content answer all questions about theirs (a key without child panics), the others none. C229_loads_partial: which loads complete (for a key the parent already has, with continuations of it present, this depends on the shape of the tree).",
 "C230": "Proved on a model in which nodes are linked by pointers and changed in place; the results of iterators are C30. A program ends at the first panic; what a panic in a key leaves behind is C131.",
 "C231": "Proved for all key operations, which may be different in each call; a program ends at the first panic (C131).",
 "C232": "Proved for calls as steps; a call that reads writes nothing but its own iterator, so finer interleavings cannot differ.",
 "C233": "Proved; the period of the checksum is computed from the factors of 2^32-1. It holds although the checksum is stored most significant byte first, unlike C98. The bound is sharp: in every longer file there are two bits that can be changed unnoticed.",
 "C234": "Proved; with eight characters it is false (C234_eight), from the exception of C98."
}