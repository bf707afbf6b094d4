{"id": "C01", "title": "Varchar round trip", "statement": "For every byte string d and every suffix rest, DecodeVarchar(EncodeVarchar(d) ++ rest) returns exactly d, reports exactly len(EncodeVarchar(d)) consumed bytes, and does not report an error or panic.", "quantifier": "all byte strings d (any length a Go slice can have) and all trailing byte strings", "why_tests_cant": "length prefixes change width at 2^7, 2^14, ...; trailing bytes are arbitrary", "anchors": ["src/util/misc_util.go:EncodeVarchar", "src/util/misc_util.go:DecodeVarchar"]}
{"id": "C02", "title": "Varchar decoding stays inside the buffer", "statement": "Whenever DecodeVarchar(buf) succeeds with (d, n) on a non-empty buf: n <= len(buf), d is the contiguous piece of buf that ends at offset n, and the result does not depend on any byte of buf at or beyond offset n. (The empty buffer decodes to the empty string, consuming nothing.)", "quantifier": "all byte strings buf, all alternative continuations after offset n", "why_tests_cant": "hostile inputs are unbounded", "anchors": ["src/util/misc_util.go:DecodeVarchar"]}
{"id": "C03", "title": "Varchar decoding never crashes", "statement": "DecodeVarchar(buf) either succeeds or returns an error for every buf: it never panics.", "quantifier": "all byte strings buf", "why_tests_cant": "the crash needs a 9 or 10 byte length prefix near 2^63, which random tests do not hit", "anchors": ["src/util/misc_util.go:DecodeVarchar"]}
{"id": "C04", "title": "Unsigned integer round trip", "statement": "For every uint64 x and every rest, DecodeUvarint64(EncodeUvarint64(x) ++ rest) returns x and consumes exactly len(EncodeUvarint64(x)) bytes.", "quantifier": "all 2^64 values, all trailing byte strings", "why_tests_cant": "2^64 values times arbitrary trailing data", "anchors": ["src/util/misc_util.go:EncodeUvarint64", "src/util/misc_util.go:DecodeUvarint64"]}
{"id": "C05", "title": "Signed integer round trip", "statement": "For every int64 x and every rest, DecodeVarint64(EncodeVarint64(x) ++ rest) returns x and consumes exactly len(EncodeVarint64(x)) bytes.", "quantifier": "all 2^64 values, all trailing byte strings", "why_tests_cant": "2^64 values times arbitrary trailing data", "anchors": ["src/util/misc_util.go:EncodeVarint64", "src/util/misc_util.go:DecodeVarint64"]}
{"id": "C06", "title": "Integer encodings are canonical, injective and 1..10 bytes", "statement": "EncodeUvarint64 produces between 1 and 10 bytes, the number of bytes is the minimal number of 7-bit groups, no encoding is a proper prefix of another, and distinct integers have distinct encodings.", "quantifier": "all pairs of uint64 values", "why_tests_cant": "2^128 pairs", "anchors": ["src/util/misc_util.go:EncodeUvarint64"]}
{"id": "C07", "title": "Composite key round trip", "statement": "For every list of sub keys whose encoding is accepted by Key.Encode, NewMappedKey(Buf() ++ rest) yields a key with exactly the same sub keys in the same order and reports len(Buf()) consumed bytes.", "quantifier": "all lists of byte strings that encode, all trailing byte strings", "why_tests_cant": "unbounded number and size of sub keys", "anchors": ["src/util/key_util.go:Key.Encode", "src/util/key_util.go:NewMappedKey", "src/util/key_util.go:MappedKey.Decode"]}
{"id": "C08", "title": "Key size limit", "statement": "Key.Encode succeeds if and only if the encoded form is at most 4096 bytes; on failure the key reports an error and its encoded state and content are unchanged.", "quantifier": "all lists of sub keys", "why_tests_cant": "the limit must hold for every combination of sub key count and sizes", "anchors": ["src/util/key_util.go:Key.Encode", "src/util/const_util.go:MAX_KEY_LENGTH"]}
{"id": "C09", "title": "Key encoding is injective and prefix free", "statement": "Two keys with different sub key lists never encode to the same bytes, nor to bytes where one is a prefix of the other followed by anything.", "quantifier": "all pairs of sub key lists, all continuations", "why_tests_cant": "pairs of unbounded inputs", "anchors": ["src/util/key_util.go:Key.Encode"]}
{"id": "C10", "title": "A decoded key's Buf() is the encoding of that key", "statement": "After NewMappedKey(buf) succeeds, Buf() returns exactly the bytes that were consumed, i.e. the encoding of the key, so that pos += len(key.Buf()) advances past the key.", "quantifier": "all byte strings buf", "why_tests_cant": "needs arbitrary trailing data", "anchors": ["src/util/key_util.go:MappedKey.Buf", "src/util/key_util.go:MappedKey.Decode"]}
{"id": "C11", "title": "Encoded key bytes track the content", "statement": "After any history of Add and Encode calls on a Key, whenever IsEncoded() is true Buf() is the encoding of the current sub keys.", "quantifier": "all finite histories of Add / Encode calls", "why_tests_cant": "histories are unbounded", "anchors": ["src/util/key_util.go:Key.Add", "src/util/key_util.go:Key.Encode", "src/util/key_util.go:Key.IsEncoded", "src/util/key_util.go:Key.Buf"]}
{"id": "C12", "title": "Key equality is an equivalence and means equal sub keys", "statement": "Equal over constructed, mapped and empty keys is reflexive, symmetric and transitive, and holds exactly when the two sub key sequences are identical.", "quantifier": "all triples of keys of every implementation", "why_tests_cant": "all combinations of implementations and contents", "anchors": ["src/util/key_util.go:Key.Equal", "src/util/key_util.go:MappedKey.Equal", "src/util/key_util.go:EmptyKey.Equal"]}
{"id": "C13", "title": "Key comparison is a total order", "statement": "Compare on keys never panics, returns 0 exactly when Equal, is antisymmetric and transitive, and orders keys lexicographically by sub key.", "quantifier": "all triples of keys of every implementation", "why_tests_cant": "all triples of unbounded inputs", "anchors": ["src/util/key_util.go:Key.Compare", "src/util/key_util.go:MappedKey.Compare", "src/util/key_util.go:EmptyKey.Compare"]}
{"id": "C14", "title": "Equal keys hash equally", "statement": "For every hash function f, keys that are Equal (whatever their implementation) have the same HashUint32(f).", "quantifier": "all pairs of keys, all hash functions", "why_tests_cant": "quantifies over functions", "anchors": ["src/util/key_util.go:Key.HashUint32", "src/util/key_util.go:MappedKey.HashUint32", "src/util/key_util.go:EmptyKey.HashUint32"]}
{"id": "C15", "title": "Distinct keys are separable by hashing", "statement": "For every two keys that are not Equal there is some hash function f under which their HashUint32(f) differ (so hash based structures can tell them apart by changing the seed).", "quantifier": "all pairs of unequal keys, all hash functions", "why_tests_cant": "quantifies over all hash functions; needs an algebraic argument", "anchors": ["src/util/key_util.go:Key.HashUint32", "src/util/key_util.go:MappedKey.HashUint32"]}
{"id": "C16", "title": "Key size estimate", "statement": "EstBufSize() of a key never exceeds its encoded size, and equals it whenever there are fewer than 128 sub keys and each is shorter than 128 bytes.", "quantifier": "all sub key lists built with NewKey/Add/NewSimpleKey", "why_tests_cant": "unbounded inputs", "anchors": ["src/util/key_util.go:Key.EstBufSize", "src/util/key_util.go:Key.Add", "src/util/key_util.go:NewSimpleKey"]}
{"id": "C17", "title": "Byte slice comparison is lexicographic", "statement": "CompareByteSlice is a total order: it never panics, returns negative/zero/positive according to lexicographic order with nil below empty, and returns zero exactly when EqualByteSlice holds.", "quantifier": "all pairs and triples of (possibly nil) byte slices", "why_tests_cant": "unbounded inputs", "anchors": ["src/collection/util.go:CompareByteSlice", "src/collection/util.go:EqualByteSlice"]}
{"id": "C18", "title": "Sorted map behaves as a finite map", "statement": "Starting from an empty SortedMap, after any sequence of Put and Remove with a lawful key order, Get(k) returns the value of the last Put not followed by a Remove, Size() is the number of live keys, Put and Remove return the previous value, and nothing panics.", "quantifier": "all key types with a total order, all operation sequences", "why_tests_cant": "sequences of any length over any key set; rotations have many cases", "anchors": ["src/collection/sorted_map.go:SortedMap.Put", "src/collection/sorted_map.go:SortedMap.Get", "src/collection/sorted_map.go:SortedMap.Remove", "src/collection/sorted_map.go:SortedMap.Size", "src/collection/avl.go:AVLTree.Put", "src/collection/avl.go:AVLTree.Remove", "src/collection/avl.go:AVLTree.Get"]}
{"id": "C19", "title": "Sorted map stays balanced", "statement": "After any sequence of Put and Remove, for every node the heights of the two sub trees differ by at most one and the stored balance is right height minus left height; the number of key comparisons of a lookup is at most 1.4405*log2(n+2) (stated as a Fibonacci bound).", "quantifier": "all key types with a total order, all operation sequences", "why_tests_cant": "worst cases are reached only by long specific histories", "anchors": ["src/collection/avl.go:AVLNode.putR", "src/collection/avl.go:AVLNode.removeR", "src/collection/avl.go:AVLNode.putBalance", "src/collection/avl.go:AVLNode.removeBalance"]}
{"id": "C20", "title": "Sorted iteration", "statement": "Iterator() on a sorted map yields every live entry exactly once in strictly increasing key order and then reports exhaustion.", "quantifier": "all reachable trees", "why_tests_cant": "all tree shapes", "anchors": ["src/collection/avl.go:NewAVLIterator", "src/collection/avl.go:AVLIterator.Next", "src/collection/avl.go:AVLIterator.advance", "src/collection/sorted_map.go:SortedMap.Iterator"]}
{"id": "C21", "title": "HasNext and Peek are observers", "statement": "In any interleaving of HasNext, Peek and Next, HasNext and Peek do not change what Next returns; Peek returns what the following Next returns; HasNext is true exactly if the following Next yields an entry.", "quantifier": "all reachable trees, all interleavings", "why_tests_cant": "interleavings are unbounded", "anchors": ["src/collection/avl.go:AVLIterator.HasNext", "src/collection/avl.go:AVLIterator.Peek", "src/collection/avl.go:AVLIterator.Next"]}
{"id": "C22", "title": "Range iteration", "statement": "RangeIterator(start, end) yields exactly the entries with start <= key < end in increasing order (a nil bound is unbounded).", "quantifier": "all reachable trees, all bounds", "why_tests_cant": "all tree shapes times all bounds", "anchors": ["src/collection/avl.go:NewAVLIterator", "src/collection/avl.go:AVLIterator.advance", "src/collection/sorted_map.go:SortedMap.RangeIterator"]}
{"id": "C23", "title": "Upper-bounded iteration", "statement": "RangeIterator(nil, end) yields exactly the entries with key < end in increasing order, each once, then reports exhaustion.", "quantifier": "all reachable trees, all end keys", "why_tests_cant": "all tree shapes times all bounds", "anchors": ["src/collection/avl.go:AVLIterator.advance"]}
{"id": "C24", "title": "A panicking comparison does not corrupt the sorted map", "statement": "If a key comparison panics during Put, Get or Remove (and the caller recovers), the map still holds exactly the entries it held before and is still balanced.", "quantifier": "all reachable trees, all keys, all key orders whose comparison may panic only when the receiver is greater than the argument (as the repository's byte slice and composite key comparisons do)", "why_tests_cant": "every crash point inside a recursive mutation", "anchors": ["src/collection/avl.go:AVLNode.putR", "src/collection/avl.go:AVLNode.removeR"]}
{"id": "C25", "title": "Sorted map over byte-slice keys", "statement": "A SortedMap keyed by ComparableByteSlice accepts every set of keys: no Put, Get or Remove panics and it behaves as a finite map.", "quantifier": "all operation sequences over all byte-slice keys", "why_tests_cant": "unbounded histories; depends on the tree shape", "anchors": ["src/collection/comparable.go:ComparableByteSlice.Compare", "src/collection/comparable.go:ComparableByteSlice.Equal", "src/collection/sorted_map.go:SortedMap.Put"]}
{"id": "C26", "title": "Exhausted sorted iterators", "statement": "After the last entry, HasNext() is false forever and Next()/Peek() of the sorted map and sorted set iterators return nil rather than crashing.", "quantifier": "all reachable trees, any number of further calls", "why_tests_cant": "unbounded further calls", "anchors": ["src/collection/sorted_map.go:SortedMapIterator.Next", "src/collection/sorted_set.go:SortedSetIterator.Next", "src/collection/avl.go:AVLIterator.Next"]}
{"id": "C27", "title": "Sorted set behaves as a finite set", "statement": "After any sequence of Put/Remove on an empty SortedSet, Exist, Size and iteration agree with the mathematical set, and Put/Remove report whether the key was present.", "quantifier": "all key types with a total order, all operation sequences", "why_tests_cant": "unbounded histories", "anchors": ["src/collection/sorted_set.go:SortedSet.Put", "src/collection/sorted_set.go:SortedSet.Remove", "src/collection/sorted_set.go:SortedSet.Exist", "src/collection/sorted_set.go:SortedSet.Iterator"]}
{"id": "C28", "title": "Hash map behaves as a finite map", "statement": "Starting from an empty HashMap of any requested capacity below 2^32 (buckets are selected by a 32 bit hash), after any sequence of Put and Remove, Get(k) returns the last value put and not removed, Size() is the number of live keys, and Put/Remove return the previous value, for every hash function that agrees with Equal, every seed, and whatever the resizing decisions are.", "quantifier": "all operation sequences, hash functions, seeds, initial parameters, resize policies", "why_tests_cant": "histories, hash functions and float based resize decisions are unbounded", "anchors": ["src/collection/hash.go:Hash.Put", "src/collection/hash.go:Hash.Get", "src/collection/hash.go:Hash.Remove", "src/collection/hash.go:Hash.resize", "src/collection/hash_map.go:HashMap.Put"]}
{"id": "C29", "title": "Hash resizing preserves content and capacity floor", "statement": "Every resize keeps exactly the same entries, each in the bucket its hash selects, and the number of buckets is never below 10.", "quantifier": "all reachable tables, all requested capacities", "why_tests_cant": "all bucket layouts", "anchors": ["src/collection/hash.go:Hash.resize", "src/collection/hash.go:NewCustomHash"]}
{"id": "C30", "title": "Hash iteration enumerates all entries", "statement": "Iterator() on a hash map/set yields each live entry exactly once.", "quantifier": "all reachable tables", "why_tests_cant": "all bucket layouts", "anchors": ["src/collection/hash.go:HashIterator.advance", "src/collection/hash.go:HashIterator.Next", "src/collection/hash.go:HashIterator.HasNext", "src/collection/hash_map.go:HashMapIterator.Next"]}
{"id": "C31", "title": "Hash set behaves as a finite set", "statement": "After any sequence of Put/Remove on an empty HashSet, Exist and Size agree with the mathematical set.", "quantifier": "all operation sequences, hash functions, seeds, resize policies", "why_tests_cant": "unbounded histories", "anchors": ["src/collection/hash_set.go:HashSet.Put", "src/collection/hash_set.go:HashSet.Remove", "src/collection/hash_set.go:HashSet.Exist"]}
{"id": "C32", "title": "Murmur hash is MurmurHash3 x86_32", "statement": "MurmurSeed.Hash(data) equals the MurmurHash3_x86_32 reference value for every data and seed.", "quantifier": "all byte strings and seeds", "why_tests_cant": "test vectors cover finitely many inputs", "anchors": ["src/collection/hash.go:MurmurSeed.Hash"]}
{"id": "C33", "title": "Hashable slices can be hashed", "statement": "HashUint32 of a HashableSlice / HashableInt16Slice / Int32Slice / Int64Slice returns a value for every content and agrees with Equal.", "quantifier": "all slice contents and capacities", "why_tests_cant": "depends on hidden slice capacity, not on content", "anchors": ["src/collection/hashable.go:HashableSlice.HashUint32", "src/collection/hashable.go:HashableInt16Slice.HashUint32", "src/collection/hashable.go:HashableInt32Slice.HashUint32", "src/collection/hashable.go:HashableInt64Slice.HashUint32"]}
{"id": "C34", "title": "Perfect hash finds every key", "statement": "If MPHBuild(keys) returns, then for every i Lookup(keys[i]) returns (i, true), in both verification modes.", "quantifier": "all key lists, hash functions, verification seeds, orders produced by the (unstable) bucket sort, numbers of seed attempts", "why_tests_cant": "seed search is data dependent and unbounded", "anchors": ["src/util/mph_util.go:MPHBuild", "src/util/mph_util.go:MPHTable.Lookup"]}
{"id": "C35", "title": "Perfect hash rejects foreign keys in key mode", "statement": "With verify-by-key, Lookup(k) returns ok=true only if k is one of the built keys, and then the index is that key's index.", "quantifier": "all key lists, all probe keys", "why_tests_cant": "all probes", "anchors": ["src/util/mph_util.go:MPHTable.Lookup"]}
{"id": "C36", "title": "Perfect hash false positives in hash mode are verification-hash collisions", "statement": "With verify-by-hash, Lookup(k) returns ok=true at index n exactly when k's verification hash equals that of keys[n]; the returned index is always below the number of keys.", "quantifier": "all key lists, all probe keys, all hash functions", "why_tests_cant": "all probes and hash functions", "anchors": ["src/util/mph_util.go:MPHTable.Lookup"]}
{"id": "C37", "title": "Perfect hash building terminates", "statement": "MPHBuild terminates for every list of pairwise unequal keys.", "quantifier": "all lists of distinct keys, all hash functions", "why_tests_cant": "non-termination cannot be observed by a test", "anchors": ["src/util/mph_util.go:MPHBuild"]}
{"id": "C38", "title": "Perfect hash serialization", "statement": "NewMPHTable(t.Encode() ++ rest) consumes exactly len(t.Encode()) bytes and yields a table with the same Lookup result for every probe key.", "quantifier": "all built tables of at most 2^31 keys, all probe keys, all trailing bytes", "why_tests_cant": "all tables and probes", "anchors": ["src/util/mph_util.go:MPHTable.Encode", "src/util/mph_util.go:NewMPHTable"]}
{"id": "C39", "title": "Perfect hash re-serialization", "statement": "Encoding a table loaded by NewMPHTable yields the same bytes it was loaded from.", "quantifier": "all built tables", "why_tests_cant": "all tables", "anchors": ["src/util/mph_util.go:MPHTable.Encode", "src/util/mph_util.go:NewMPHTable", "src/util/key_util.go:MappedKey.Buf"]}
{"id": "C40", "title": "Perfect hash loader rejects truncation without crashing", "statement": "NewMPHTable on any byte string in hash mode returns a table or an error, never panics, and on success consumes no more than the buffer; any strict prefix of an encoded hash-mode table is rejected.", "quantifier": "all byte strings", "why_tests_cant": "hostile inputs are unbounded", "anchors": ["src/util/mph_util.go:NewMPHTable"]}
{"id": "C41", "title": "Lookup on an empty table", "statement": "Lookup on a table built from zero keys returns ok=false for every probe.", "quantifier": "all probe keys", "why_tests_cant": "all probes", "anchors": ["src/util/mph_util.go:MPHBuild", "src/util/mph_util.go:MPHTable.Lookup"]}
{"id": "C42", "title": "Primitive value round trip", "statement": "For every byte string d shorter than 65536, NewStandardMappedValue(Encode(d) ++ rest) is a primitive whose Value() is d, and consumes exactly the encoding; longer data is refused by Encode.", "quantifier": "all byte strings other than a nil slice, all trailing bytes", "why_tests_cant": "three width classes, arbitrary trailing data", "anchors": ["src/util/value_util.go:Primitive.Encode", "src/util/value_util.go:NewStandardMappedValue", "src/util/value_util.go:StandardMappedValue.Decode"]}
{"id": "C43", "title": "Nested value array round trip", "statement": "For every nested value built from primitives and value arrays whose Encode succeeds, decoding the encoding (with any trailing bytes) yields a value with the same shape: same Size at each level and the same primitive contents at each index path.", "quantifier": "all finite nested values, all trailing bytes", "why_tests_cant": "unbounded nesting and sizes", "anchors": ["src/util/value_util.go:ValueArray.Encode", "src/util/value_util.go:StandardMappedValue.ValueAt", "src/util/value_util.go:StandardMappedValue.Decode"]}
{"id": "C44", "title": "Value decoding is total and exact", "statement": "NewStandardMappedValue never panics; on success it consumes n bytes with 1 <= n <= len(buf), Buf() is exactly the first n bytes, and the outcome does not depend on bytes after n.", "quantifier": "all byte strings and continuations", "why_tests_cant": "hostile inputs are unbounded", "anchors": ["src/util/value_util.go:NewStandardMappedValue", "src/util/value_util.go:StandardMappedValue.Decode", "src/util/value_util.go:StandardMappedValue.Buf"]}
{"id": "C45", "title": "ValueAt is independent of access history", "statement": "For a decoded value array, the result of ValueAt(i) does not depend on which ValueAt calls were made before.", "quantifier": "all encoded arrays, all access histories", "why_tests_cant": "all histories of a caching accessor", "anchors": ["src/util/value_util.go:StandardMappedValue.ValueAt"]}
{"id": "C46", "title": "Value size limits", "statement": "Encode of a primitive or value array succeeds exactly when every payload and element count fits 16 bits; it never emits a header whose length field disagrees with the payload.", "quantifier": "all nested values", "why_tests_cant": "boundary behaviour at every nesting level", "anchors": ["src/util/value_util.go:Primitive.Encode", "src/util/value_util.go:ValueArray.Encode"]}
{"id": "C47", "title": "Copying a mapped value preserves its encoding", "statement": "For every constructed value that round trips, CopyConstruct of the decoded value followed by Encode reproduces the same bytes.", "quantifier": "all finite nested values", "why_tests_cant": "unbounded nesting", "anchors": ["src/util/value_util.go:StandardMappedValue.CopyConstruct"]}
{"id": "C48", "title": "Value array mutators", "statement": "After any sequence of Append and DeleteAt, ValueAt/Size agree with a list; out of range DeleteAt is an error that changes nothing; IsEncoded becomes false after every successful mutation.", "quantifier": "all operation sequences", "why_tests_cant": "unbounded histories; 16-bit index arithmetic", "anchors": ["src/util/value_util.go:ValueArray.Append", "src/util/value_util.go:ValueArray.DeleteAt", "src/util/value_util.go:ValueArray.Size", "src/util/value_util.go:ValueArray.ValueAt"]}
{"id": "C49", "title": "Record encoding layout", "statement": "Record.Encode emits one magic byte whose bits are set exactly for the components that are present and non-empty, followed by those components in the order key, value, scheme, timestamp, signature; absent components emit nothing; reserved bits are zero.", "quantifier": "all records", "why_tests_cant": "all presence combinations times unbounded contents", "anchors": ["src/util/record_util.go:Record.Encode"]}
{"id": "C50", "title": "Record round trip", "statement": "NewMappedRecord(r.Encode()) succeeds and has the same key, value, scheme, timestamp and signature as r.", "quantifier": "all records that encode", "why_tests_cant": "unbounded contents", "anchors": ["src/util/record_util.go:Record.Encode", "src/util/record_util.go:NewMappedRecord", "src/util/record_util.go:MappedRecord.Decode"]}
{"id": "C51", "title": "Record decoding never crashes", "statement": "NewMappedRecord(buf) returns a record or an error for every buf; it never panics.", "quantifier": "all byte strings", "why_tests_cant": "hostile inputs are unbounded", "anchors": ["src/util/record_util.go:NewMappedRecord", "src/util/record_util.go:MappedRecord.Decode"]}
{"id": "C52", "title": "Record decoding is bounded and exact", "statement": "When NewMappedRecord succeeds, the consumed length is at most len(buf) and Buf() is exactly the consumed prefix.", "quantifier": "all byte strings", "why_tests_cant": "hostile inputs are unbounded", "anchors": ["src/util/record_util.go:MappedRecord.Decode"]}
{"id": "C53", "title": "Signatures are never emitted without a timestamp", "statement": "Record.Encode emits a signature only if both a timestamp and both signature halves are present, always as exactly 8 + 64 bytes.", "quantifier": "all records", "why_tests_cant": "all presence combinations", "anchors": ["src/util/record_util.go:Record.Encode"]}
{"id": "C54", "title": "Record mutators invalidate the encoding", "statement": "After any history of setters and Encode, IsEncoded() implies Buf() is the encoding of the current fields.", "quantifier": "all histories of SetKey/SetValue/SetScheme/SetTimestamp/SetSignature/Encode", "why_tests_cant": "unbounded histories", "anchors": ["src/util/record_util.go:Record.SetKey", "src/util/record_util.go:Record.SetValue", "src/util/record_util.go:Record.SetScheme", "src/util/record_util.go:Record.SetTimestamp", "src/util/record_util.go:Record.SetSignature", "src/util/record_util.go:Record.Encode"]}
{"id": "C55", "title": "Scheme round trip", "statement": "Decoding an encoded scheme yields the same domain, tablet and buckets.", "quantifier": "all schemes that encode", "why_tests_cant": "nil/empty combinations times unbounded contents", "anchors": ["src/util/scheme_util.go:Scheme.Encode", "src/util/scheme_util.go:MappedScheme.Decode"]}
{"id": "C56", "title": "Scheme size limit", "statement": "Scheme.Encode succeeds if and only if the encoded form is at most 1024 bytes.", "quantifier": "all schemes", "why_tests_cant": "all size combinations", "anchors": ["src/util/scheme_util.go:Scheme.Encode"]}
{"id": "C57", "title": "Ledger time round trip and order", "statement": "Ledger times serialize to 5 bytes and parse back; GT/GE/EQ/NE/LT/LE are the total order on the epoch and mutually consistent.", "quantifier": "all ledger times", "why_tests_cant": "2^32 values, pairs and triples", "anchors": ["src/util/consensus_util.go:NewConsensusTime", "src/util/consensus_util.go:LedgerTime.Buf", "src/util/consensus_util.go:LedgerTime.GT", "src/util/consensus_util.go:LedgerTime.LT"]}
{"id": "C58", "title": "Raft time order", "statement": "GT, GE, EQ, NE, LT and LE on raft times are the lexicographic total order on (term, millis, count) and mutually consistent (LT(a,b)=GT(b,a), LE = not GT).", "quantifier": "all raft times", "why_tests_cant": "pairs and triples of 2^128 values", "anchors": ["src/util/consensus_util.go:RaftTime.GT", "src/util/consensus_util.go:RaftTime.GE", "src/util/consensus_util.go:RaftTime.EQ", "src/util/consensus_util.go:RaftTime.NE", "src/util/consensus_util.go:RaftTime.LT", "src/util/consensus_util.go:RaftTime.LE"]}
{"id": "C59", "title": "Raft time round trip", "statement": "NewConsensusTime(rt.Buf()) yields the same raft time.", "quantifier": "all raft times", "why_tests_cant": "2^128 values", "anchors": ["src/util/consensus_util.go:RaftTime.Buf", "src/util/consensus_util.go:NewConsensusTime"]}
{"id": "C60", "title": "Mixed-kind time comparisons are errors", "statement": "Comparing a ledger time with a raft time (either way, every comparator) returns an error and never an answer.", "quantifier": "all pairs of times of different kinds", "why_tests_cant": "2^224 pairs", "anchors": ["src/util/consensus_util.go:LedgerTime.GT", "src/util/consensus_util.go:RaftTime.GT"]}
{"id": "C61", "title": "Consensus time parsing is total", "statement": "NewConsensusTime returns a time or an error for every byte string, never panics, and succeeds exactly when the magic is known and enough bytes are present; it ignores trailing bytes.", "quantifier": "all byte strings", "why_tests_cant": "hostile inputs", "anchors": ["src/util/consensus_util.go:NewConsensusTime"]}
{"id": "C62", "title": "Consensus id parsing", "statement": "NewMappedConsensusID accepts exactly the buffers whose magic has a non-zero upper part and zero reserved bits and which are long enough; fields are the consecutive slices selected by the magic bits; Buf() is the consumed prefix; Copy parses to the same fields.", "quantifier": "all byte strings", "why_tests_cant": "hostile inputs; 32 magic layouts", "anchors": ["src/util/consensus_util.go:NewMappedConsensusID", "src/util/consensus_util.go:MappedConsensusID.Copy"]}
{"id": "C63", "title": "Base58 round trip", "statement": "Decode(Encode(b)) = b for every byte string, including leading zero bytes and the empty string.", "quantifier": "all byte strings", "why_tests_cant": "unbounded inputs", "anchors": ["src/util/base58_util.go:Base58Encode", "src/util/base58_util.go:Base58Decode"]}
{"id": "C64", "title": "Base58 canonical", "statement": "For every string s of Base58 alphabet characters, Encode(Decode(s)) = s; hence encoding is a bijection.", "quantifier": "all strings over the alphabet", "why_tests_cant": "unbounded inputs", "anchors": ["src/util/base58_util.go:Base58Encode", "src/util/base58_util.go:Base58Decode"]}
{"id": "C65", "title": "Base58 rejects foreign characters", "statement": "Decode returns nil exactly when the string contains a byte outside the 58 character alphabet.", "quantifier": "all byte strings", "why_tests_cant": "unbounded inputs", "anchors": ["src/util/base58_util.go:Base58Decode"]}
{"id": "C66", "title": "Fixed-width integer conversions", "statement": "Int64/Int32/Uint32 to byte array and back is the identity, the encodings are 8/4/4 bytes big endian, and too-short input decodes to 0.", "quantifier": "all integers, all byte strings", "why_tests_cant": "2^64 values", "anchors": ["src/collection/util.go:Int64ToByteArray", "src/collection/util.go:ByteArrayToInt64", "src/collection/util.go:Int32ToByteArray", "src/collection/util.go:ByteArrayToInt32", "src/collection/util.go:Uint32ToByteArray", "src/collection/util.go:ByteArrayToUint32"]}
{"id": "C67", "title": "256-bit integer conversions", "statement": "BigIntToByteArray always yields 32 bytes, and ByteArrayToBigInt inverts it for every integer in [0, 2^256).", "quantifier": "all integers", "why_tests_cant": "2^256 values", "anchors": ["src/collection/util.go:BigIntToByteArray", "src/collection/util.go:ByteArrayToBigInt"]}
{"id": "C68", "title": "Timestamp conversions", "statement": "BytesToTime(TimeToBytes(t)) is the same instant for every instant representable as int64 nanoseconds.", "quantifier": "all instants", "why_tests_cant": "2^64 values", "anchors": ["src/collection/util.go:TimeToBytes", "src/collection/util.go:BytesToTime"]}
{"id": "C69", "title": "Unsigned random ranges", "statement": "RandUint*Range(min, max) returns a value in [min, max) for every min < max and every random source output.", "quantifier": "all bounds, all random outputs", "why_tests_cant": "all random outputs", "anchors": ["src/util/rand_util.go:RandUint8Range", "src/util/rand_util.go:RandUint16Range", "src/util/rand_util.go:RandUint32Range", "src/util/rand_util.go:RandUint64Range"]}
{"id": "C70", "title": "Signed random ranges", "statement": "RandInt*Range(min, max) returns a value in [min, max) for every min < max and every random source output.", "quantifier": "all bounds, all random outputs", "why_tests_cant": "all random outputs", "anchors": ["src/util/rand_util.go:RandInt8Range", "src/util/rand_util.go:RandInt16Range", "src/util/rand_util.go:RandInt32Range", "src/util/rand_util.go:RandInt64Range"]}
{"id": "C71", "title": "Key file paths do not collide", "statement": "Different (class, id) pairs and public versus private files always map to different paths.", "quantifier": "all identifier strings, all classes", "why_tests_cant": "unbounded identifiers", "anchors": ["src/util/lc_util.go:lc_get_pub_key_path", "src/util/lc_util.go:lc_get_priv_key_path"]}
{"id": "C72", "title": "Key file round trip", "statement": "After a successful save, loading returns the stored public X and the stored private D, for every key and passphrase accepted.", "quantifier": "all keys, all secrets, all initial file systems", "why_tests_cant": "2^256 keys", "anchors": ["src/util/lc_util.go:lc_save_key_pair", "src/util/lc_util.go:lc_load_key_data", "src/util/lc_util.go:LCLoadPubKey", "src/util/lc_util.go:LCLoadPrivKey"]}
{"id": "C73", "title": "Key file crash ordering", "statement": "If the process dies at any point while saving into a fresh location, a public key file never exists without its complete, loadable private key file.", "quantifier": "all crash points including partial writes", "why_tests_cant": "crash points", "anchors": ["src/util/lc_util.go:lc_save_key_pair"]}
{"id": "C74", "title": "Key file corruption is detected", "statement": "A key file is accepted only if it is valid hex and its last four bytes are the checksum of the preceding bytes.", "quantifier": "all file contents", "why_tests_cant": "all file contents", "anchors": ["src/util/lc_util.go:lc_load_key_data"]}
{"id": "C75", "title": "Key file loading never crashes", "statement": "Loading any file content returns a key or an error, never panics.", "quantifier": "all file contents", "why_tests_cant": "all file contents", "anchors": ["src/util/lc_util.go:lc_load_key_data", "src/util/lc_util.go:LCLoadPrivKey"]}
{"id": "C76", "title": "Public key recovery", "statement": "Loading a saved public key yields the same curve point that was saved.", "quantifier": "all curve points", "why_tests_cant": "2^256 points", "anchors": ["src/util/ecdsa_util.go:ECDSACalculateY", "src/util/ecdsa_util.go:ECDSAGetPublicKey", "src/util/lc_util.go:LCLoadPubKey"]}
{"id": "C77", "title": "AES secret padding", "statement": "AESPad returns exactly 16 bytes: the last 16 bytes of a long secret, or the secret followed by zero bytes.", "quantifier": "all byte strings", "why_tests_cant": "unbounded inputs", "anchors": ["src/util/ecdsa_util.go:AESPad"]}
{"id": "C78", "title": "Trie behaves as a map", "statement": "After Set(k, v) on a Trie, Get(k) returns v, for every key.", "quantifier": "all keys, all histories", "why_tests_cant": "all histories", "anchors": ["src/util/trie_util.go:Trie.Set", "src/util/trie_util.go:Trie.Get", "src/util/trie_util.go:TrieNode.GetChild"]}
{"id": "C79", "title": "Trie can be serialized", "statement": "Trie.Encode returns bytes (or an error) for every trie, and NewMappedTrie of them has the same content.", "quantifier": "all tries", "why_tests_cant": "all tries", "anchors": ["src/util/trie_util.go:Trie.Encode", "src/util/trie_util.go:NewMappedTrie", "src/util/trie_util.go:MappedTrie.Decode"]}
{"id": "C80", "title": "Trie key iteration", "statement": "KeyIterator on a trie yields its keys.", "quantifier": "all tries", "why_tests_cant": "all tries", "anchors": ["src/util/trie_util.go:NewTrieKeyIterator", "src/util/trie_util.go:TrieNode.FullKey"]}
{"id": "C81", "title": "Loaded tries answer lookups", "statement": "Any trie loaded by NewMappedTrie can be queried with Get for every key without crashing, and reports the stored value.", "quantifier": "all byte strings that load, all keys", "why_tests_cant": "hostile inputs", "anchors": ["src/util/trie_util.go:MappedTrie.Decode", "src/util/trie_util.go:MappedTrie.Get", "src/util/trie_util.go:MappedTrieNode.Decode"]}
{"id": "C82", "title": "Copying a key preserves it", "statement": "Copy and CopyConstruct of any key return an Equal key and never panic.", "quantifier": "all keys of every implementation", "why_tests_cant": "unbounded contents", "anchors": ["src/util/key_util.go:Key.Copy", "src/util/key_util.go:MappedKey.CopyConstruct", "src/util/key_util.go:EmptyKey.Copy"]}
{"id": "C83", "title": "Record list and value list element access is bounds safe", "statement": "ValueAt / RecordAt with an index at or beyond the element count returns an error, never a value and never a panic.", "quantifier": "all decoded values, all 16-bit indexes", "why_tests_cant": "all inputs and indexes", "anchors": ["src/util/value_util.go:StandardMappedValue.ValueAt", "src/util/value_util.go:StandardMappedValue.RecordAt", "src/util/value_util.go:ValueArray.ValueAt"]}
{"id": "C84", "title": "Truncated keys are rejected", "statement": "Decoding a strict, non-empty prefix of an encoded key reports an error.", "quantifier": "all encodable keys, all truncation points", "why_tests_cant": "all truncation points of all keys", "anchors": ["src/util/key_util.go:MappedKey.Decode", "src/util/misc_util.go:DecodeVarchar"]}
{"id": "C85", "title": "Consensus id parsing does not crash", "statement": "NewMappedConsensusID reports an error on any unacceptable buffer; it never panics.", "quantifier": "all byte strings, including the empty one", "why_tests_cant": "all inputs", "anchors": ["src/util/consensus_util.go:NewMappedConsensusID"]}
{"id": "C86", "title": "Key pairs do not share files", "statement": "Key files of different (class, identifier) pairs are different files of the file system.", "quantifier": "all classes, all identifier strings", "why_tests_cant": "unbounded identifiers", "anchors": ["src/util/lc_util.go:lc_get_key_dir", "src/util/lc_util.go:lc_get_pub_key_path", "src/util/lc_util.go:lc_get_priv_key_path"]}
{"id": "C87", "title": "Corruption of one byte of a key file is detected", "statement": "If the two characters of any one byte of an acceptable key file are replaced by characters denoting anything else, loading reports an error.", "quantifier": "all acceptable files, all positions, all replacements", "why_tests_cant": "all files and positions", "anchors": ["src/util/lc_util.go:lc_load_key_data"]}
{"id": "C88", "title": "Overwriting a key pair is atomic", "statement": "If the process dies at any point while a saved key pair is being overwritten, the old pair or the new pair can be loaded.", "quantifier": "all crash points, all contents", "why_tests_cant": "crash points", "anchors": ["src/util/lc_util.go:lc_save_key_pair"]}
{"id": "C89", "title": "Different passphrases give different encryption keys", "statement": "Two different passphrases accepted by the key generator encrypt the private key under different AES keys.", "quantifier": "all pairs of passphrases of at least 8 bytes", "why_tests_cant": "unbounded inputs", "anchors": ["src/main/pkeygen.go:generate_key_pair", "src/util/lc_util.go:PromptPassphrase"]}
{"id": "C90", "title": "Scheme decoding never crashes", "statement": "Decoding a mapped scheme returns a scheme or an error for every buffer; it never panics.", "quantifier": "all byte strings", "why_tests_cant": "unbounded inputs; one crafted length field is enough to crash the reader", "anchors": ["src/util/scheme_util.go:MappedScheme.Decode"]}
{"id": "C91", "title": "Copying a scheme", "statement": "The copy of a scheme has the same three parts and, when encoded, gives the same bytes or the same failure.", "quantifier": "all schemes", "why_tests_cant": "all schemes", "anchors": ["src/util/scheme_util.go:Scheme.Copy"]}
{"id": "C92", "title": "Trie iterator end test", "statement": "HasNext() of a trie key iterator is true exactly while Next() has something left to return; a loop `for it.HasNext() { it.Next() }` ends.", "quantifier": "all iterator states, all loaded tries, all keys", "why_tests_cant": "all iterator states; a wrong end test shows as an endless loop", "anchors": ["src/util/trie_util.go:TrieKeyIterator.HasNext", "src/util/trie_util.go:TrieKeyIterator.Next", "src/util/trie_util.go:MappedTrie.KeyIterator"]}
{"id": "C93", "title": "Copy of a trie keeps its content", "statement": "Copy() of a trie answers every Get like the original.", "quantifier": "all histories, all keys", "why_tests_cant": "all histories", "anchors": ["src/util/trie_util.go:Trie.Copy"]}
{"id": "C94", "title": "Table files load exactly if well formed", "statement": "LoadSSTableV1 succeeds exactly on files consisting of version 1, a consensus id, domain, table, start and end time, start and end key, level, a count of at most 2^20, their CRC-32, a lookup table, at most 2^20 record offsets, and the CRC-32 of these; the attributes it reports are those written in the file, and records start right after the second checksum.", "quantifier": "all files (byte strings)", "why_tests_cant": "all byte strings", "anchors": ["src/pdb/sstable.go:LoadSSTableV1", "src/pdb/sstable.go:SSTableV1"]}
{"id": "C95", "title": "Loading a table file never crashes", "statement": "LoadSSTableV1 returns a table or an error for every file; it does not panic.", "quantifier": "all files (byte strings)", "why_tests_cant": "all byte strings", "anchors": ["src/pdb/sstable.go:LoadSSTableV1"]}
{"id": "C96", "title": "Corruption of a table file is detected", "statement": "After changing one byte of a loadable table file before its records, the file does not load.", "quantifier": "all loadable files, all positions, all replacement bytes", "why_tests_cant": "all files and positions; the counterexample needs a prepared file", "anchors": ["src/pdb/sstable.go:LoadSSTableV1"]}
{"id": "C97", "title": "Loading depends on the header and lookup table only", "statement": "For a table file with a hash-verified lookup table, loading does not depend on the bytes after the second checksum, and no file cut before them loads.", "quantifier": "all loadable files, all replacements of the records, all cut positions", "why_tests_cant": "all files", "anchors": ["src/pdb/sstable.go:LoadSSTableV1"]}
{"id": "C98", "title": "Corruption of up to four adjacent bytes of a key file is detected", "statement": "If up to four adjacent bytes of the content of an acceptable key file are replaced by others, loading reports an error (the guarantee of CRC-32 for bursts of 32 bits).", "quantifier": "all acceptable files, all positions, all replacements", "why_tests_cant": "all files, positions and replacements; only one difference pattern at one position escapes", "anchors": ["src/util/lc_util.go:lc_load_key_data", "src/util/lc_util.go:LCSaveKeyPair"]}
{"id": "C99", "title": "Hash maps keep their load and their memory bounded", "statement": "After any calls, a hash map or set holds fewer than 0.75 entries per bucket (up to the rounding of float32 beyond 2^24 buckets), and one created with the default capacity has at most seven buckets per entry, or ten.", "quantifier": "all histories of calls, all hash functions, all initial capacities (first part)", "why_tests_cant": "all histories; the decisions are taken in float32 and depend on rounding at every size", "anchors": ["src/collection/hash.go:NewHash", "src/collection/hash.go:NewCustomHash", "src/collection/hash.go:Put", "src/collection/hash.go:Remove", "src/collection/hash.go:resize"]}
{"id": "C100", "title": "Calls on a default hash map do not panic", "statement": "As long as a map created with the default settings holds fewer than 600 million entries, Get, Put and Remove return without panicking.", "quantifier": "all histories of calls, all hash functions, all keys and values", "why_tests_cant": "all histories and hash functions; the failing sizes are beyond what a test allocates", "anchors": ["src/collection/hash.go:Get", "src/collection/hash.go:Put", "src/collection/hash.go:Remove", "src/collection/hash.go:resize"]}
{"id": "C101", "title": "Resizing a hash map costs constant time per call on average", "statement": "Over any history of calls, the total number of entries moved by all resizes is at most four per call plus three tenths of the initial capacity.", "quantifier": "all histories of calls, all hash functions, all initial capacities", "why_tests_cant": "an amortised bound over all histories, including ones that alternate around a resize threshold", "anchors": ["src/collection/hash.go:Put", "src/collection/hash.go:Remove", "src/collection/hash.go:resize"]}
{"id": "C102", "title": "Copying a value or record succeeds and keeps its contents", "statement": "Copy() of every value and record, decoded or constructed and however nested, returns a copy with the same contents that is encoded to the same bytes, and never panics.", "quantifier": "all values and records, mapped and constructed, of any nesting", "why_tests_cant": "unbounded nesting, and the failing keys and byte strings are rare encodings a test would not contain", "anchors": ["src/util/value_util.go:Copy", "src/util/record_util.go:Copy", "src/util/key_util.go:Copy"]}
{"id": "C103", "title": "A constructed copy of a decoded record encodes to the same bytes", "statement": "CopyConstruct() of a decoded record, once encoded, gives exactly the bytes of the record it was made from.", "quantifier": "all byte strings that decode to a record", "why_tests_cant": "all record encodings, including nested values and every combination of optional parts", "anchors": ["src/util/record_util.go:CopyConstruct", "src/util/record_util.go:Encode", "src/util/record_util.go:Decode"]}
{"id": "C104", "title": "Being nil survives encoding and decoding", "statement": "IsNil() of a value is true exactly if its encoding is empty or the single byte 0x00, for decoded as for constructed values, so a value is nil before encoding if and only if it is nil after decoding.", "quantifier": "all byte strings that decode to a value, all constructed values that can be encoded", "why_tests_cant": "all byte strings: one wrong header byte treated as nil would drop data silently", "anchors": ["src/util/value_util.go:IsNil", "src/util/value_util.go:Encode", "src/util/value_util.go:Decode"]}
{"id": "C105", "title": "Every value has exactly one kind", "statement": "Exactly one of IsPrimitive(), IsValueArray(), IsRecordList() is true for every value, and encoding and decoding does not change the three answers.", "quantifier": "all values, mapped and constructed; all encodings", "why_tests_cant": "all values of any nesting and all header bytes", "anchors": ["src/util/value_util.go:IsPrimitive", "src/util/value_util.go:IsValueArray", "src/util/value_util.go:IsRecordList"]}
{"id": "C106", "title": "Simple values are exactly the varchars", "statement": "NewSimpleMappedValue decodes a buffer exactly if it starts with a varchar; content, Buf() and length are those of this varchar whatever follows it, and IsNil() holds exactly if the content is empty.", "quantifier": "all buffers, all contents", "why_tests_cant": "all buffers, with arbitrary bytes behind the value", "anchors": ["src/util/value_util.go:NewSimpleMappedValue", "src/util/value_util.go:SimpleMappedValue"]}
{"id": "C107", "title": "Encoding values that share parts", "statement": "A value or record may occur several times inside another one or in several others. Encode() of an object gives the encoding of what it contains at that moment, whatever was shared or encoded before, leaves the contents of every object as they were, and succeeds only if no object in it is nested in itself.", "quantifier": "all histories of constructing, changing and encoding values and records, all ways they refer to each other", "why_tests_cant": "arbitrary object graphs and histories of calls, including cyclic ones on which Encode never returns", "anchors": ["src/util/value_util.go:Encode", "src/util/value_util.go:Append", "src/util/record_util.go:Encode", "src/util/record_util.go:SetValue"]}
{"id": "C108", "title": "IsEncoded means that Buf is current", "statement": "Whenever IsEncoded() of a constructed value or record is true, Buf() is the encoding of what it contains now, also if values or records nested in it have been changed in the meantime.", "quantifier": "all histories of constructing, changing and encoding values and records, all ways they refer to each other", "why_tests_cant": "all interleavings of changes to nested objects with encoding of the enclosing ones", "anchors": ["src/util/value_util.go:IsEncoded", "src/util/value_util.go:Buf", "src/util/value_util.go:Append", "src/util/value_util.go:DeleteAt", "src/util/record_util.go:IsEncoded", "src/util/record_util.go:Buf"]}
{"id": "C109", "title": "Size estimate of a scheme", "statement": "EstBufSize() of a scheme that can be encoded is never more than the length of its encoding, and equal to it exactly if domain, tablet and buckets are shorter than 128 bytes and there are fewer than 128 buckets.", "quantifier": "all schemes", "why_tests_cant": "all combinations of lengths around the varint boundaries", "anchors": ["src/util/scheme_util.go:EstBufSize", "src/util/scheme_util.go:Encode"]}
{"id": "C110", "title": "Size estimate of values and records is enough", "statement": "EstBufSize() of a value or record is at least the length of the encoding of what it contains.", "quantifier": "all histories of constructing, changing and encoding values and records", "why_tests_cant": "all lengths, nestings and histories of changes", "anchors": ["src/util/value_util.go:EstBufSize", "src/util/record_util.go:EstBufSize", "src/util/value_util.go:Append"]}
{"id": "C111", "title": "Reading records of a decoded list", "statement": "RecordAt(i) of a decoded value gives the same record (with the same Value() and Scheme()), or the same error, however often and in whatever order the records, values and elements of the decoded value were read before.", "quantifier": "all byte strings that decode, all histories of ValueAt and RecordAt on all objects, all indices", "why_tests_cant": "the elements are decoded lazily and cached, so the result can depend on any earlier access", "anchors": ["src/util/value_util.go:RecordAt", "src/util/record_util.go:NewMappedRecord", "src/util/record_util.go:Value", "src/util/record_util.go:Scheme"]}
{"id": "C112", "title": "Loading a malformed trie", "statement": "NewMappedTrie on any byte string returns a trie or an error; it does not crash.", "quantifier": "all byte strings", "why_tests_cant": "hostile inputs", "anchors": ["src/util/trie_util.go:NewMappedTrie", "src/util/trie_util.go:MappedTrie.Decode", "src/util/trie_util.go:MappedTrieNode.Decode"]}
{"id": "C113", "title": "Constructed copies of values with decoded parts", "statement": "CopyConstruct() of every value or record, with decoded keys, values and elements anywhere in it, returns a copy in which nothing is decoded, so that it can be encoded; if the original can be encoded, the copy is encoded to the same bytes.", "quantifier": "all values and records, of any nesting, mixing constructed and decoded parts", "why_tests_cant": "unbounded nesting with decoded parts at any place", "anchors": ["src/util/value_util.go:CopyConstruct", "src/util/record_util.go:CopyConstruct", "src/util/key_util.go:CopyConstruct"]}
{"id": "C114", "title": "A copy shares nothing with its original", "statement": "The copy of a value or record contains the same, is encoded to the same bytes, and consists of new objects only. After copying, no call on the original, on anything nested in it or on objects made later changes what the copy or a part of it contains, whether it is encoded, its bytes or its estimated size; and no call on the copy or its parts changes any object that was there before.", "quantifier": "all histories of calls before and after copying (constructors, Append, DeleteAt, setters, Encode, Copy), all objects including ones that share parts", "why_tests_cant": "sharing between copy and original would show only after particular later calls, on particular parts", "anchors": ["src/util/value_util.go:Copy", "src/util/record_util.go:Copy", "src/util/value_util.go:Append", "src/util/value_util.go:DeleteAt"]}
{"id": "C115", "title": "A copy has the estimated size of its original", "statement": "EstBufSize() of the copy of a value or record equals EstBufSize() of the original.", "quantifier": "all objects after all histories of calls", "why_tests_cant": "the estimate is kept incrementally and depends on the history of each object", "anchors": ["src/util/value_util.go:EstBufSize", "src/util/record_util.go:EstBufSize", "src/util/value_util.go:Copy", "src/util/record_util.go:Copy"]}
{"id": "C116", "title": "Calls change what they are to change", "statement": "Append puts the given value (or record) behind the other elements; SetKey, SetValue, SetScheme, SetTimestamp and SetSignature each replace their own part of a record and leave the others; no call changes what an object contains that neither is the changed one nor has it nested in it. An object that is appended to itself or to something nested in it no longer contains anything that could be encoded.", "quantifier": "all histories of calls on objects that may share parts, all objects, all arguments", "why_tests_cant": "all sharing structures and all histories", "anchors": ["src/util/value_util.go:ValueArray.Append", "src/util/value_util.go:RecordList.Append", "src/util/record_util.go:Record.SetKey", "src/util/record_util.go:Record.SetValue", "src/util/record_util.go:Record.SetScheme", "src/util/record_util.go:Record.SetTimestamp", "src/util/record_util.go:Record.SetSignature"]}
{"id": "C117", "title": "DeleteAt removes one element", "statement": "DeleteAt(idx) of a value array or record list succeeds for every idx below the number of elements, and removes exactly the element at idx.", "quantifier": "all histories of calls, all arrays and lists of any length, all 16 bit indexes", "why_tests_cant": "fails only for arrays of 65536 elements or more", "anchors": ["src/util/value_util.go:ValueArray.DeleteAt", "src/util/value_util.go:RecordList.DeleteAt"]}
{"id": "C118", "title": "Size estimates of containers", "statement": "EstBufSize() of a value array is one more than the sum of the current EstBufSize() of its elements; likewise for record lists and the parts of records.", "quantifier": "all objects after all histories of calls", "why_tests_cant": "the estimate is kept incrementally and depends on the whole history", "anchors": ["src/util/value_util.go:ValueArray.EstBufSize", "src/util/value_util.go:RecordList.EstBufSize", "src/util/record_util.go:Record.EstBufSize", "src/util/value_util.go:ValueArray.Append", "src/util/value_util.go:ValueArray.DeleteAt"]}
{"id": "C119", "title": "Bytes only after Encode", "statement": "Buf() of a value or record panics exactly as long as IsEncoded() is false; a constructed object is not encoded before a call of Encode.", "quantifier": "all objects after all histories of calls", "why_tests_cant": "all histories", "anchors": ["src/util/value_util.go:Buf", "src/util/value_util.go:IsEncoded", "src/util/record_util.go:Buf", "src/util/record_util.go:IsEncoded"]}
{"id": "C120", "title": "Copying a decoded value reads all of it", "statement": "CopyConstruct() of a decoded value or record, whatever elements were accessed before, returns exactly the values, records, timestamps and signatures that its bytes say, and fails exactly if some part of them is not well formed.", "quantifier": "all byte sequences that decode, all histories of accesses before copying", "why_tests_cant": "unbounded nesting of malformed and well formed parts, and histories that fill the element caches in any order", "anchors": ["src/util/value_util.go:StandardMappedValue.CopyConstruct", "src/util/value_util.go:StandardMappedValue.ValueAt", "src/util/value_util.go:StandardMappedValue.RecordAt", "src/util/record_util.go:MappedRecord.CopyConstruct"]}
{"id": "C121", "title": "Copies of decoded values can be encoded", "statement": "Every copy that CopyConstruct() makes of a decoded value or record can be encoded, takes no more bytes than the original, and decoding these bytes gives a value that shows the same contents as the copy at every index path through arrays.", "quantifier": "all byte sequences that decode and can be copied, including those not written by this library, all histories of accesses", "why_tests_cant": "the original may be written in any of many forms, with length fields longer than needed, at any depth", "anchors": ["src/util/value_util.go:StandardMappedValue.CopyConstruct", "src/util/value_util.go:ValueArray.Encode", "src/util/value_util.go:RecordList.Encode", "src/util/value_util.go:Primitive.Encode", "src/util/record_util.go:Record.Encode"]}
{"id": "C122", "title": "Order of comparable slices of the same shape", "statement": "For two comparable slices of any element types and nesting, without anything nil and with the same types and lengths everywhere, Compare() returns -1, 0 or 1: 0 exactly if the contents are the same, -1 exactly if the first different integer is smaller, and the negated result for exchanged arguments. -1 and 1 are transitive for all slices without anything nil, and Equal() of these always returns, true exactly for the same type and contents.", "quantifier": "all comparable slices of the eight integer types and all nestings of slices of comparables", "why_tests_cant": "unbounded lengths, values and nesting depth; transitivity over all triples", "anchors": ["src/collection/comparable.go:ComparableSlice.Compare", "src/collection/comparable.go:ComparableSlice.Equal", "src/collection/comparable.go:ComparableByteSlice.Compare", "src/collection/util.go:CompareByteSlice", "src/collection/util.go:EqualByteSlice"]}
{"id": "C123", "title": "All comparable slices of a type can be compared", "statement": "For any two comparable slices of the same type without anything nil, Compare() returns a result, and the negated result for exchanged arguments.", "quantifier": "all comparable slices of the eight integer types and all nestings of slices of comparables", "why_tests_cant": "unbounded lengths, values and nesting depth", "anchors": ["src/collection/comparable.go:ComparableSlice.Compare", "src/collection/comparable.go:ComparableByteSlice.Compare", "src/collection/util.go:CompareByteSlice", "src/collection/util.go:CompareInt64Slice"]}
{"id": "C124", "title": "Copies of values own their bytes", "statement": "A copy of a value that contains no constructed record with a key, made by Copy() or CopyConstruct(), shows the contents of the original, and has its own bytes: whatever is assigned to bytes that existed before, the original's included, the copy shows the same, and whatever is assigned to bytes of the copy, the original and every other value show the same.", "quantifier": "all values built from primitives, arrays, record lists and decoded values without constructed keys, all memory layouts (overlapping slices included), all sequences of assignments", "why_tests_cant": "all nestings, all ways slices can overlap in memory, all sequences of later assignments", "anchors": ["src/util/value_util.go:Primitive.Copy", "src/util/value_util.go:ValueArray.Copy", "src/util/value_util.go:RecordList.Copy", "src/util/value_util.go:SimpleMappedValue.Copy", "src/util/value_util.go:StandardMappedValue.Copy", "src/util/value_util.go:StandardMappedValue.CopyConstruct", "src/util/record_util.go:MappedRecord.Copy", "src/util/encodable.go:IEncodable"]}
{"id": "C125", "title": "Copies of keys, records and schemes own their bytes", "statement": "A copy of a key, record or scheme has its own bytes: assigning a byte of the original does not change what the copy shows, and the other way round.", "quantifier": "all keys, records and schemes, all memory layouts, all assignments", "why_tests_cant": "all nestings of records in values, all ways slices can overlap in memory", "anchors": ["src/util/key_util.go:MappedKey.Copy", "src/util/key_util.go:MappedKey.CopyConstruct", "src/util/key_util.go:Key.Copy", "src/util/key_util.go:Key.CopyConstruct", "src/util/record_util.go:Record.Copy", "src/util/record_util.go:Record.CopyConstruct", "src/util/scheme_util.go:Scheme.Copy", "src/util/scheme_util.go:MappedScheme.Copy"]}
{"id": "C126", "title": "The bytes of an encoded key are those of its sub keys", "statement": "After a key was encoded, Buf() is the encoding of its sub keys, also if bytes handed to the key are assigned later.", "quantifier": "all constructed keys, all memory layouts, all sequences of assignments after encoding", "why_tests_cant": "all sub keys and all later assignments to the memory they share with the caller", "anchors": ["src/util/key_util.go:Key.Encode", "src/util/key_util.go:Key.Buf", "src/util/key_util.go:Key.Add"]}
{"id": "C127", "title": "Decoded objects do not depend on the buffer they were decoded from", "statement": "A decoded key, value, record or scheme shows the same after the buffer it was decoded from is used for something else.", "quantifier": "all buffers that can be decoded, all positions of the buffer in memory, all assignments", "why_tests_cant": "all encodings and all positions; which bytes matter depends on the lengths in the encoding", "anchors": ["src/util/key_util.go:MappedKey.Decode", "src/util/value_util.go:StandardMappedValue.Decode", "src/util/value_util.go:SimpleMappedValue.Decode", "src/util/record_util.go:MappedRecord.Decode", "src/util/scheme_util.go:MappedScheme.Decode", "src/util/misc_util.go:DecodeVarchar"]}
{"id": "C128", "title": "Sorted maps are independent of each other", "statement": "In a program that uses several sorted maps, and iterators of them, each call on a map returns what it would return if every map was a separate finite map: calls on other maps and the use of iterators make no difference.", "quantifier": "all programs: sequences of calls on any number of maps and iterators, all key types with a consistent total order", "why_tests_cant": "nodes are linked by pointers and changed in place; all interleavings of calls", "anchors": ["src/collection/avl.go:single", "src/collection/avl.go:double", "src/collection/avl.go:putR", "src/collection/avl.go:removeR", "src/collection/sorted_map.go:SortedMap"]}
{"id": "C129", "title": "No comparison function can damage a sorted map's structure", "statement": "Whatever the comparison of keys answers, and whenever it panics: a sorted map stays a balanced tree in which every node is reached once, shared with no other map; and a call panics only if the comparison does.", "quantifier": "all programs, all key operations, even different ones in each call, all points at which comparisons panic", "why_tests_cant": "arbitrary inconsistent comparison functions, all histories", "anchors": ["src/collection/avl.go:putR", "src/collection/avl.go:removeR", "src/collection/avl.go:removeBalance", "src/collection/avl.go:putBalance"]}
{"id": "C130", "title": "A sorted map can be changed while iterating over it", "statement": "An iterator returns each key that stays in the map once and in order, also if the map is changed by Put and Remove while iterating.", "quantifier": "all programs with any number of maps and iterators, changes at any point of the iteration", "why_tests_cant": "the effect depends on which rotations a change causes and where the iterator is", "anchors": ["src/collection/avl.go:AVLIterator.Next", "src/collection/avl.go:AVLIterator.advance", "src/collection/sorted_map.go:SortedMapIterator"]}
{"id": "C131", "title": "A call on a hash map that panics has no effect", "statement": "If the HashUint32 or Equal method of a key panics in the middle of Put or Remove and the caller recovers, the map is as before the call; and a call panics only if such a method does.", "quantifier": "all histories of calls, all keys with lawful hash and equality, any set of method calls that panic, chosen anew for each call; all growth policies that stay within memory", "why_tests_cant": "a panic can happen at any of the method calls of an operation, among them those made while the table is rebuilt", "anchors": ["src/collection/hash.go:Hash.Put", "src/collection/hash.go:Hash.Remove", "src/collection/hash.go:Hash.Get", "src/collection/hash.go:Hash.resize", "src/collection/hash_map.go:HashMap.Put"]}
{"id": "C132", "title": "Signatures verify", "statement": "A signature that ECDSASign returns is accepted by ECDSAVerify with the public key of the same pair, also if the private key was stored as bytes and read back with ECDSAGetPrivateKey, which returns the same key pair.", "quantifier": "all private keys from 1 to n - 1, all byte strings signed, all random numbers used", "why_tests_cant": "private keys, hashes and random numbers have 256 bits each; the claim depends on the group law and the order of the curve", "anchors": ["src/util/ecdsa_util.go:ECDSAGenerateKey", "src/util/ecdsa_util.go:ECDSASign", "src/util/ecdsa_util.go:ECDSAVerify", "src/util/ecdsa_util.go:ECDSAGetPrivateKey"]}
{"id": "C133", "title": "A loaded public key accepts the signatures of its private key", "statement": "After a key pair was saved, the public key loaded from its file accepts every signature made with the private key.", "quantifier": "all private keys, file systems, hashes and random numbers", "why_tests_cant": "half of all keys are affected; a test uses one generated key", "anchors": ["src/util/ecdsa_util.go:ECDSAGetPublicKey", "src/util/ecdsa_util.go:ECDSASign", "src/util/ecdsa_util.go:ECDSAVerify", "src/util/lc_util.go:LCLoadPubKey"]}
{"id": "C134", "title": "A signature cannot be altered", "statement": "With a public key, a hash and r, ECDSAVerify accepts at most one s.", "quantifier": "all points of the curve as public key, all hashes, all integers r and s", "why_tests_cant": "a claim about all 2^256 values of s", "anchors": ["src/util/ecdsa_util.go:ECDSAVerify"]}
{"id": "C135", "title": "A signature covers all bytes given", "statement": "A signature accepted for one byte string is not accepted for another one.", "quantifier": "all points of the curve as public key, all byte strings of any length, all integers r and s", "why_tests_cant": "a claim about all pairs of byte strings", "anchors": ["src/util/ecdsa_util.go:ECDSASign", "src/util/ecdsa_util.go:ECDSAVerify"]}
{"id": "C136", "title": "Signing ends", "statement": "ECDSASign returns a signature after a bounded number of attempts with different random numbers.", "quantifier": "all private keys, byte strings and sequences of random numbers between 1 and n - 1", "why_tests_cant": "unusable random numbers are too rare to occur in a test", "anchors": ["src/util/ecdsa_util.go:ECDSASign"]}
{"id": "C137", "title": "Different private keys have different public key files", "statement": "If two key pairs have the same public key file, they have the same private key.", "quantifier": "all pairs of private keys from 1 to n - 1", "why_tests_cant": "the exceptional pairs do not occur by chance", "anchors": ["src/util/ecdsa_util.go:ECDSAGenerateKey", "src/util/ecdsa_util.go:ECDSAGetPublicKey", "src/util/lc_util.go:LCLoadPubKey"]}
{"id": "C138", "title": "Verification with a loaded public key does not panic", "statement": "If a public key file was loaded without an error, ECDSAVerify with this key returns true or false for all arguments.", "quantifier": "all contents of the file, all byte strings, all integers r and s", "why_tests_cant": "about half of all contents are affected, but none that a test writes by saving a key", "anchors": ["src/util/ecdsa_util.go:ECDSAGetPublicKey", "src/util/ecdsa_util.go:ECDSAVerify", "src/util/lc_util.go:LCLoadPubKey"]}
{"id": "C139", "title": "A generated key is usable under its identifier and its alias", "statement": "If pkeygen exits successfully, LCLoadPubKey and LCLoadPrivKey (with the secret made from the passphrase) return the generated key, both under the printed identifier and under the alias if one was given.", "quantifier": "all key pairs, passphrases, faults and prior file systems with plain class directories and a new identifier; aliases that are absent or a single name", "why_tests_cant": "a test runs the program once against one prepared directory; the claim is about every prior content of the file system, including links and files in the place of the alias", "anchors": ["src/main/pkeygen.go:process_key", "src/main/pkeygen.go:generate_key_pair", "src/util/lc_util.go:LCLoadPubKey", "src/util/lc_util.go:LCLoadPrivKey", "src/util/lc_util.go:lc_save_key_pair", "src/util/lc_util.go:lc_mkdir_if_not_exist"]}
{"id": "C140", "title": "Existing keys survive a run of the key generator", "statement": "Whatever alias is given and wherever the run stops, every key pair that was stored before still loads, under its identifier and under its other aliases.", "quantifier": "all runs, all points at which they may be cut off, all faults, all prior file systems, all stored key pairs", "why_tests_cant": "crash points between system calls and arbitrary alias strings cannot be enumerated by tests", "anchors": ["src/main/pkeygen.go:process_key", "src/util/lc_util.go:lc_save_key_pair"]}
{"id": "C141", "title": "An alias is not replaced without consent", "statement": "Without -force and without the answer y or Y, whatever the alias is, what existed before the run (in the place of the alias or elsewhere) is the same in every state of the run; if the alias exists, nothing at all changes and the exit status is 1.", "quantifier": "all runs without consent, all states, all prior file systems", "why_tests_cant": "the claim is about all intermediate states and all kinds of entries in the place of the alias", "anchors": ["src/main/pkeygen.go:process_key", "src/main/pkeygen.go:check_path_exist"]}
{"id": "C142", "title": "An alias that is replaced is never lost", "statement": "In every state of a run, an alias that existed before leads to the old key or to the new key.", "quantifier": "all runs, all states, all faults", "why_tests_cant": "needs a crash or a failing system call between two adjacent calls", "anchors": ["src/main/pkeygen.go:process_key"]}
{"id": "C143", "title": "With consent an alias can be replaced", "statement": "With -force or the answer y, a passphrase typed in twice and no failing system call, pkeygen succeeds unless a directory with entries is in the place of the alias.", "quantifier": "all prior file systems and inputs", "why_tests_cant": "depends on the kind of entry in the place of the alias, including links to other links and dangling links", "anchors": ["src/main/pkeygen.go:process_key", "src/main/pkeygen.go:check_path_exist"]}
{"id": "C144", "title": "A generated key opens with the passphrase it was made with", "statement": "A private key made by pkeygen loads with LCLoadPrivKeyPrompt when the same passphrase is typed in.", "quantifier": "all passphrases the key generator accepts, all runs that succeed", "why_tests_cant": "tests try a few passphrases; the outcome depends on the length", "anchors": ["src/main/pkeygen.go:generate_key_pair", "src/util/lc_util.go:LCLoadPrivKeyPrompt", "src/util/lc_util.go:PromptPassphrase"]}
{"id": "C145", "title": "A passphrase that the prompt accepts can be used for saving", "statement": "LCSaveKeyPairPrompt succeeds for every passphrase that the prompt accepts, and the key then loads with LCLoadPrivKeyPrompt and the same passphrase.", "quantifier": "all passphrases, keys, nonces and file systems", "why_tests_cant": "tests try a few passphrases; the outcome depends on the length", "anchors": ["src/util/lc_util.go:LCSaveKeyPairPrompt", "src/util/lc_util.go:LCLoadPrivKeyPrompt", "src/util/lc_util.go:PromptPassphrase"]}
{"id": "C146", "title": "A hash map respects the load factor it was created with", "statement": "After any calls, a hash map created with NewCustomHashMap has fewer entries per bucket than the load factor asked for, moved into the range from 0.5 to 1 (up to the rounding of float32 beyond 2^24 buckets).", "quantifier": "all float32 arguments including infinities and NaN, all initial capacities, all histories of calls, all hash functions", "why_tests_cant": "the decisions are taken in float32 and depend on rounding at every size, for every pair of arguments", "anchors": ["src/collection/hash.go:NewCustomHash", "src/collection/hash.go:Put", "src/collection/hash.go:Remove", "src/collection/hash.go:resize", "src/collection/hash_map.go:NewCustomHashMap"]}
{"id": "C147", "title": "A hash map with custom settings bounds its memory and is a finite map", "statement": "For every load factor f and multiplier m that are numbers (moved into the ranges 0.5..1 and 1.2..5), a map created with capacity ten never has more than ten buckets or about m^4/f per entry, and during its first 268 million calls every call returns the result of a finite map, for every initial capacity below 2^32.", "quantifier": "all load factors and multipliers that are numbers, all histories of calls, all hash functions that agree with Equal", "why_tests_cant": "arguments, histories and rounding errors cannot be enumerated", "anchors": ["src/collection/hash.go:NewCustomHash", "src/collection/hash.go:Put", "src/collection/hash.go:Remove", "src/collection/hash.go:resize", "src/collection/hash_map.go:NewCustomHashMap"]}
{"id": "C148", "title": "Resizing costs constant time per call on average for all settings", "statement": "Over any history of calls on a hash map created with any capacity, load factor and multiplier, the total number of entries moved by all resizes is at most twenty per call plus three per bucket of the initial table.", "quantifier": "all float32 arguments including infinities and NaN, all initial capacities, all histories of calls, all hash functions", "why_tests_cant": "an amortised bound over all histories and all settings, including ones that alternate around a resize threshold", "anchors": ["src/collection/hash.go:NewCustomHash", "src/collection/hash.go:Put", "src/collection/hash.go:Remove", "src/collection/hash.go:resize"]}
{"id": "C149", "title": "Iterators of a sorted map survive every change of the map", "statement": "Whatever is put into or removed from a sorted map while an iterator of it is in use, and whatever the comparisons answer: a call on the iterator panics only if a comparison panics, or if it is Next or Peek and nothing is left, that is, if HasNext would have returned false. Making an iterator panics only for bounds in the wrong order.", "quantifier": "all programs with any number of maps and iterators, changes at any point, all key operations, even different ones in each call", "why_tests_cant": "the stack of an iterator may refer to nodes that were removed, re-linked by rotations or overwritten, in any combination", "anchors": ["src/collection/avl.go:AVLIterator.Next", "src/collection/avl.go:AVLIterator.HasNext", "src/collection/avl.go:AVLIterator.Peek", "src/collection/avl.go:AVLIterator.advance", "src/collection/avl.go:removeR", "src/collection/avl.go:putR", "src/collection/avl.go:NewAVLIterator"]}
{"id": "C150", "title": "Iterators return only entries that the map has or had", "statement": "The key and value returned by an iterator were put together, by one earlier call of Put, into the map the iterator was made for; and the map has that entry when it is returned.", "quantifier": "all programs with any number of maps and iterators, changes at any point, all key operations", "why_tests_cant": "an iterator may stand at a node that was removed or whose entry was replaced, depending on the history", "anchors": ["src/collection/avl.go:AVLIterator.Next", "src/collection/avl.go:AVLIterator.HasNext", "src/collection/avl.go:AVLIterator.Peek", "src/collection/avl.go:AVLIterator.advance", "src/collection/avl.go:removeR", "src/collection/avl.go:putR"]}
{"id": "C151", "title": "Iterators end", "statement": "Once a sorted map is no longer changed, an iterator of it returns only finitely many entries, so that the loop over HasNext and Next ends, whatever was done to the map before and whatever the comparisons answer.", "quantifier": "all programs, all states of the iterator when the map is left alone, all key operations, all continuations that leave the map alone", "why_tests_cant": "a cycle of links through removed nodes would only appear after particular histories; termination is not observable by a test", "anchors": ["src/collection/avl.go:AVLIterator.Next", "src/collection/avl.go:AVLIterator.HasNext", "src/collection/avl.go:AVLIterator.Peek", "src/collection/avl.go:AVLIterator.advance", "src/collection/avl.go:removeR", "src/collection/avl.go:putR"]}
{"id": "C152", "title": "Under a random seed every hash is equally likely", "statement": "The hash of a byte string (or of a key with one sub key) takes each of its 2^32 values under exactly one seed; so a hash map with a random seed puts a given byte slice into each of its buckets with the same chance, up to one seed.", "quantifier": "all byte strings, all hash values, all numbers of buckets below 2^32", "why_tests_cant": "needs all 2^32 seeds for every byte string", "anchors": ["src/collection/hash.go:MurmurSeed.Hash", "src/collection/hash.go:NewCustomHash", "src/collection/hash.go:Hash.Get"]}
{"id": "C153", "title": "Keys that differ in one word have different hashes", "statement": "Two byte strings of the same length that differ only within one aligned word of four bytes (in particular: in one byte, or of at most four bytes) have different hashes under every seed.", "quantifier": "all pairs of such byte strings, all seeds", "why_tests_cant": "the pairs and seeds cannot be enumerated", "anchors": ["src/collection/hash.go:MurmurSeed.Hash", "src/collection/hash.go:NewCustomHash", "src/collection/hash.go:Hash.Get"]}
{"id": "C154", "title": "Nobody can choose colliding keys without knowing the seed", "statement": "Different byte strings, and different keys, are told apart by their hashes under some seed, so that the random seed of a hash map protects it from keys chosen to be in one bucket.", "quantifier": "all pairs of byte strings, all seeds; all hash maps with byte slices as keys", "why_tests_cant": "collisions have to be found among all keys, and hold for all seeds", "anchors": ["src/collection/hash.go:MurmurSeed.Hash", "src/collection/hash.go:NewCustomHash", "src/collection/hash.go:Hash.Get", "src/util/key_util.go:Key.HashUint32"]}
{"id": "C155", "title": "A hash map can be indexed by composite keys", "statement": "A hash map with composite keys maps sequences of sub keys: constructed, decoded and empty keys can be mixed, keys with the same sub keys are the same key of the map, all others are different, no call panics, and every call returns what a finite map from sequences of sub keys returns.", "quantifier": "all histories of Put, Remove and Get, all keys of all three kinds, all seeds, all capacities and resize settings", "why_tests_cant": "equality, hashing and the table have to fit together for all pairs of kinds of keys and all collisions of hashes", "anchors": ["src/util/key_util.go:Key.Equal", "src/util/key_util.go:MappedKey.Equal", "src/util/key_util.go:EmptyKey.Equal", "src/util/key_util.go:Key.HashUint32", "src/util/key_util.go:MappedKey.HashUint32", "src/util/key_util.go:EmptyKey.HashUint32", "src/collection/hash_map.go:HashMap"]}
{"id": "C156", "title": "A sorted map can be indexed by composite keys", "statement": "A sorted map with composite keys maps sequences of sub keys, in lexicographic order: no call panics, every call returns what a finite map returns, and iteration visits the entries in order.", "quantifier": "all histories of Put, Remove and Get, all keys of all three kinds, mixed", "why_tests_cant": "the order in which keys are compared depends on the shape of the tree and with it on the history", "anchors": ["src/util/key_util.go:Key.Equal", "src/util/key_util.go:MappedKey.Equal", "src/util/key_util.go:EmptyKey.Equal", "src/util/key_util.go:Key.Compare", "src/util/key_util.go:MappedKey.Compare", "src/util/key_util.go:EmptyKey.Compare", "src/collection/sorted_map.go:SortedMap"]}
{"id": "C157", "title": "A key object can be used after it was put into a map", "statement": "The methods of a key object that is in a map (Encode, which a record or a table calls, Add and others) have no effect on the map: all entries are found under the sub keys they were put with.", "quantifier": "all programs in which calls on the map and methods of the keys in it alternate", "why_tests_cant": "the map holds the same object as the program; whether a change of it matters depends on what else is in the map", "anchors": ["src/util/key_util.go:Key.Encode", "src/util/key_util.go:Key.Add", "src/collection/hash.go:Hash.Put", "src/collection/avl.go:putR"]}
{"id": "C158", "title": "An open table shows its file", "statement": "As long as a table has not been closed, its consensus id, domain, table name, start key and end key are those written in its file, whatever other tables are loaded and closed, and also after a Close that returned an error.", "quantifier": "all sequences of loads and closes of any files, all behaviours of the system", "why_tests_cant": "a table's attributes are slices of mapped memory, valid only as long as nothing unmaps it; the sequences are unbounded", "anchors": ["src/pdb/sstable.go:LoadSSTableV1", "src/pdb/sstable.go:SSTableV1.Close", "src/pdb/sstable.go:SSTableV1.ConsensusID", "src/pdb/sstable.go:SSTableV1.Domain", "src/pdb/sstable.go:SSTableV1.Table", "src/pdb/sstable.go:SSTableV1.StartKey", "src/pdb/sstable.go:SSTableV1.EndKey"]}
{"id": "C159", "title": "Closing a table is safe", "statement": "Close can be repeated and reports a failure to unmap; what a table has returned can still be looked at after Close and does not change.", "quantifier": "all sequences of loads and closes of any files, all attributes", "why_tests_cant": "depends on where the system maps the next file", "anchors": ["src/pdb/sstable.go:SSTableV1.Close", "src/pdb/sstable.go:SSTableV1.ConsensusID", "src/pdb/sstable.go:SSTableV1.Domain", "src/pdb/sstable.go:SSTableV1.Table", "src/pdb/sstable.go:SSTableV1.StartKey", "src/pdb/sstable.go:SSTableV1.EndKey"]}
{"id": "C160", "title": "Tables leave nothing behind", "statement": "After a load that failed or panicked, and after Close, neither the file nor its mapping stays open.", "quantifier": "all sequences of loads and closes of any files", "why_tests_cant": "leaks are not visible in results and add up over long runs; the leaking files are malformed ones", "anchors": ["src/pdb/sstable.go:LoadSSTableV1", "src/pdb/sstable.go:SSTableV1.Close"]}
{"id": "C161", "title": "Decoding asks for memory in proportion to its input", "statement": "Decoding a key, scheme, value or record makes slices of at most 24 bytes for every byte of input, plus a fixed amount (1 MiB for each value), whatever the input and whether or not decoding succeeds; what a decoded object holds is exactly what was requested.", "quantifier": "all byte strings", "why_tests_cant": "hostile lengths in the input; the bound holds because of a check in the integer decoder that looks like a mistake elsewhere", "anchors": ["src/util/key_util.go:NewMappedKey", "src/util/key_util.go:MappedKey.Decode", "src/util/scheme_util.go:MappedScheme.Decode", "src/util/value_util.go:StandardMappedValue.Decode", "src/util/record_util.go:MappedRecord.Decode"]}
{"id": "C162", "title": "Loading tables asks for memory in proportion to the file", "statement": "Loading a lookup table or a table file requests at most a megabyte of memory for every byte of the file, plus 8 MiB.", "quantifier": "all byte strings, all files", "why_tests_cant": "needs a hostile or damaged number; the requested amount is not visible in the result", "anchors": ["src/util/mph_util.go:NewMPHTable", "src/pdb/sstable.go:LoadSSTableV1"]}
{"id": "C163", "title": "Calls on a sorted map take logarithmic time", "statement": "On a sorted map with n entries, after any history of calls, Get, Put and Remove each call the key's Equal and Compare at most 2*log(n+1) times and follow at most log(n+1) links (Remove twice as many), the logarithm taken to the golden ratio; with keys whose methods answer anything at all, there are at most two calls for each level of the tree.", "quantifier": "all histories, all keys, all sizes", "why_tests_cant": "tests measure a few sizes; the worst history is not known", "anchors": ["src/collection/avl.go:putR", "src/collection/avl.go:removeR", "src/collection/avl.go:getR", "src/collection/sorted_map.go:SortedMap"]}
{"id": "C164", "title": "Iterating over a sorted map takes constant time per call", "statement": "An iterator over a whole sorted map never calls the methods of the keys, and creating it and making m calls follows at most 2*m+h links, h the height of the tree. With an end, creation and m calls take at most 3*m+3*h comparisons and links together, a start adds at most 2*h*h+1 once, and no single call without start takes more than 3*h+3.", "quantifier": "all histories, all bounds, all sequences of calls", "why_tests_cant": "the cost of one call varies; only the sum over all sequences is bounded", "anchors": ["src/collection/avl.go:AVLIterator.advance", "src/collection/avl.go:NewAVLIterator"]}
{"id": "C165", "title": "A trie node finds its children", "statement": "A trie node keeps a finite map from keys to child nodes: after any history of PutChild and RemoveChild on any nodes, GetChild returns the child last put under a key and not removed since, and asking for a key that has no child does not panic.", "quantifier": "all histories of calls on trie nodes, all keys, all values", "why_tests_cant": "each node has a search tree of its own whose shape depends on the whole history", "anchors": ["src/util/trie_util.go:TrieNode.GetChild", "src/util/trie_util.go:TrieNode.PutChild", "src/util/trie_util.go:TrieNode.RemoveChild", "src/util/trie_util.go:NewTrieNode"]}
{"id": "C166", "title": "Putting a child links it to its parent", "statement": "After PutChild(k, n) the node n reports the node it was put under as its Parent, and k as its NodeKey.", "quantifier": "all histories of calls on trie nodes, all keys, all values", "why_tests_cant": "that a field is never written by any call is a statement about all histories", "anchors": ["src/util/trie_util.go:TrieNode.PutChild", "src/util/trie_util.go:TrieNode.Parent", "src/util/trie_util.go:TrieNode.NodeKey", "src/util/trie_util.go:NewTrieNode"]}
{"id": "C167", "title": "Full key of a trie node", "statement": "FullKey of a node is the key whose sub keys are the node keys on the way from the root to the node.", "quantifier": "all histories of calls on trie nodes, all keys, all values", "why_tests_cant": "paths of any depth", "anchors": ["src/util/trie_util.go:TrieNode.FullKey"]}
{"id": "C168", "title": "A copy of a trie node is independent", "statement": "After Copy of a trie node, changes of the children of the original are not seen through the copy.", "quantifier": "all histories of calls on trie nodes, all keys, all values", "why_tests_cant": "sharing shows only in later calls, of which there are infinitely many sequences", "anchors": ["src/util/trie_util.go:TrieNode.Copy"]}
{"id": "C169", "title": "An encoded trie node can be loaded", "statement": "The bytes that Encode makes of a trie node are read by the loader as a node with the same key and value.", "quantifier": "all keys, values, offsets and numbers of children", "why_tests_cant": "formats agree or not for all contents; tests try a few", "anchors": ["src/util/trie_util.go:TrieNode.Encode", "src/util/trie_util.go:MappedTrieNode.Decode"]}
{"id": "C170", "title": "Bytes of a trie node are current", "statement": "Buf of an encoded trie node are the bytes of its present key, value and number of children.", "quantifier": "all histories of calls on trie nodes, all keys, all values", "why_tests_cant": "staleness depends on the order of calls", "anchors": ["src/util/trie_util.go:TrieNode.Buf", "src/util/trie_util.go:TrieNode.Encode", "src/util/trie_util.go:TrieNode.SetValue", "src/util/trie_util.go:TrieNode.PutChild"]}
{"id": "C171", "title": "Size estimate of a trie node", "statement": "EstBufSize of a trie node is at least the number of bytes that Encode makes, if that is so for its value.", "quantifier": "all histories of calls on trie nodes, all keys, all values", "why_tests_cant": "the shortfall appears only for large offsets, keys or numbers of children", "anchors": ["src/util/trie_util.go:TrieNode.EstBufSize", "src/util/trie_util.go:TrieNode.Encode"]}
{"id": "C172", "title": "Loading a trie node reports errors", "statement": "NewMappedTrieNode reports an error if the bytes given to it are not a node.", "quantifier": "all byte strings, all parents, offsets and known nodes", "why_tests_cant": "all malformed inputs", "anchors": ["src/util/trie_util.go:NewMappedTrieNode"]}
{"id": "C173", "title": "A loaded trie node can be read", "statement": "A node for which NewMappedTrieNode reports no error and a positive length answers NodeKey and Value without panic.", "quantifier": "all byte strings, all parents, offsets and known nodes", "why_tests_cant": "all inputs that are accepted", "anchors": ["src/util/trie_util.go:NewMappedTrieNode", "src/util/trie_util.go:MappedTrieNode.Decode", "src/util/trie_util.go:MappedTrieNode.NodeKey", "src/util/trie_util.go:MappedTrieNode.Value"]}
{"id": "C174", "title": "Key iteration visits all descendants", "statement": "A key iterator returns every node below the node it starts at exactly once, parents before children and siblings in order, then nil; Peek returns what Next would, and neither Peek nor HasNext changes what later calls return.", "quantifier": "all tries of nodes with any children, keys and values, all sequences of Next, Peek and HasNext", "why_tests_cant": "tries of any shape and calls in any order", "anchors": ["src/util/trie_util.go:NewTrieKeyIterator", "src/util/trie_util.go:TrieKeyIterator.Next", "src/util/trie_util.go:TrieKeyIterator.HasNext", "src/util/trie_util.go:TrieKeyIterator.Peek"]}
{"id": "C175", "title": "Start of a key iterator", "statement": "A key iterator can be started at a node if and only if it is a descendant of the root.", "quantifier": "all tries, all nodes", "why_tests_cant": "paths of any depth", "anchors": ["src/util/trie_util.go:NewTrieKeyIterator"]}
{"id": "C176", "title": "Range iteration without bounds", "statement": "A range iterator without start and end visits all nodes of the trie once and then ends.", "quantifier": "all tries of nodes with any children, keys and values, all sequences of Next, Peek and HasNext", "why_tests_cant": "whether the iterator comes back from every subtree depends on the shape of the whole trie; a test that fails does not end", "anchors": ["src/util/trie_util.go:NewTrieRangeIterator", "src/util/trie_util.go:TrieRangeIterator.Next", "src/util/trie_util.go:TrieRangeIterator.checkEnd"]}
{"id": "C177", "title": "Range iteration up to an end", "statement": "A range iterator with an end visits exactly the nodes whose full key is before the end, in order, and then ends.", "quantifier": "all tries of nodes with any children, keys and values, all sequences of Next, Peek and HasNext, all ends", "why_tests_cant": "the flags the iterator keeps depend on all subtrees visited before", "anchors": ["src/util/trie_util.go:NewTrieRangeIterator", "src/util/trie_util.go:TrieRangeIterator.Next", "src/util/trie_util.go:TrieRangeIterator.checkEnd"]}
{"id": "C178", "title": "Range iteration from a start", "statement": "A range iterator with a start visits exactly the nodes whose full key is not before the start (and is before the end, if there is one), in order, and then ends.", "quantifier": "all tries of nodes with any children, keys and values, all starts and ends, all sequences of Next, Peek and HasNext", "why_tests_cant": "the path to the start can have any length, and what the iterator does about the end depends on the way it came to the start", "anchors": ["src/util/trie_util.go:NewTrieRangeIterator", "src/util/trie_util.go:TrieRangeIterator.Next", "src/util/trie_util.go:TrieRangeIterator.checkStart", "src/util/trie_util.go:TrieRangeIterator.checkEnd"]}
{"id": "C179", "title": "Reading elements in order takes one step each", "statement": "Reading the elements of a decoded value array or record list one after the other takes as many rounds of the decoding loop as there are elements.", "quantifier": "all encoded arrays and lists, all histories of reads of any decoded objects", "why_tests_cant": "the number of rounds depends on everything read before", "anchors": ["src/util/value_util.go:StandardMappedValue.ValueAt", "src/util/value_util.go:StandardMappedValue.RecordAt"]}
{"id": "C180", "title": "Every element is decoded once", "statement": "However often and in whatever order the elements of a decoded value array or record list are read, no more elements are decoded than it has.", "quantifier": "all encoded arrays and lists, well formed or not, all histories of reads of any decoded objects", "why_tests_cant": "all histories of a caching accessor", "anchors": ["src/util/value_util.go:StandardMappedValue.ValueAt", "src/util/value_util.go:StandardMappedValue.RecordAt"]}
{"id": "C181", "title": "Printing a sorted map shows every entry once", "statement": "Printing a sorted map, after any history of operations, writes a line with its size, then one line for each entry with its key and value, indented by 4 for each level of the tree; there are as many such lines as the size says.", "quantifier": "all orders and key and value types whose texts have no return character, all histories, all indents", "why_tests_cant": "all shapes of trees and all indents", "anchors": ["src/collection/avl.go:AVLTree.Print", "src/collection/avl.go:AVLTree.ToString", "src/collection/avl.go:AVLNode.Print", "src/collection/avl.go:AVLNode.ToString"]}
{"id": "C182", "title": "Printing a hash map shows every entry once", "statement": "Printing a hash map, after any history of operations, writes a line with its size, then one line for each entry with its key and value, indented by 4 for each place in its chain; there are as many such lines as the size says.", "quantifier": "all hash functions and key and value types whose texts have no return character, all histories, all indents", "why_tests_cant": "all distributions of keys over chains", "anchors": ["src/collection/hash.go:Hash.Print", "src/collection/hash.go:Hash.ToString", "src/collection/hash.go:HashNode.Print", "src/collection/hash.go:HashNode.ToString"]}
{"id": "C183", "title": "The text of a key identifies it", "statement": "Two keys have the same text exactly if they are equal.", "quantifier": "all pairs of keys of all kinds, encoded or not", "why_tests_cant": "injectivity over all lists of byte strings", "anchors": ["src/util/key_util.go:Key.ToString", "src/util/key_util.go:MappedKey.ToString", "src/util/key_util.go:EmptyKey.ToString"]}
{"id": "C184", "title": "Texts are one line, and all printed lines are indented", "statement": "The text of a printable object has no return character, and every line it prints begins with the requested indent.", "quantifier": "all keys, sorted maps, hash maps and tries in any state, all indents", "why_tests_cant": "a claim about every line printed for objects of any size", "anchors": ["src/collection/object.go:IPrintable", "src/collection/avl.go:AVLTree.Print", "src/collection/hash.go:Hash.Print", "src/util/key_util.go:Key.Print", "src/util/key_util.go:Key.ToString", "src/util/key_util.go:MappedKey.Print", "src/util/key_util.go:EmptyKey.Print", "src/util/trie_util.go:Trie.Print", "src/util/trie_util.go:TrieNode.Print"]}
{"id": "C185", "title": "Printing a trie writes one line for each node", "statement": "Printing a trie writes its text on a line, then one line for each node, indented by 4 for each level.", "quantifier": "all tries with a root, all indents", "why_tests_cant": "all shapes of tries", "anchors": ["src/util/trie_util.go:Trie.Print", "src/util/trie_util.go:TrieNode.Print", "src/util/trie_util.go:MappedTrie.Print", "src/util/trie_util.go:MappedTrieNode.Print"]}
{"id": "C186", "title": "A mapped scheme shows what its bytes say, in any order of calls", "statement": "For a scheme made from bytes and any sequence of calls other than Copy and EstBufSize: the getters panic until Decode was called, and always if the bytes do not decode; afterwards they return the parts the bytes decode to, BucketAt panics exactly outside of the range. Every Decode returns the same, IsDecoded is true exactly after a Decode that succeeded, IsEncoded is always true, Encode is an error, and Buf returns the bytes.", "quantifier": "all byte strings, all sequences of calls", "why_tests_cant": "orders and repetitions of calls are unlimited, and so are the bytes", "anchors": ["src/util/scheme_util.go:NewMappedSchemd", "src/util/scheme_util.go:MappedScheme.Decode", "src/util/scheme_util.go:MappedScheme.Domain", "src/util/scheme_util.go:MappedScheme.Tablet", "src/util/scheme_util.go:MappedScheme.Buckets", "src/util/scheme_util.go:MappedScheme.BucketAt"]}
{"id": "C187", "title": "A copy of a mapped scheme has its content", "statement": "If the bytes of a mapped scheme decode, then the scheme made by Copy is the one they decode to, and EstBufSize is the estimate of that scheme, whatever was called before.", "quantifier": "all byte strings, all sequences of calls before", "why_tests_cant": "a claim about all sequences of calls before the copy", "anchors": ["src/util/scheme_util.go:MappedScheme.Copy", "src/util/scheme_util.go:MappedScheme.CopyConstruct", "src/util/scheme_util.go:MappedScheme.EstBufSize"]}
{"id": "C188", "title": "Equality of hashable objects is an equivalence", "statement": "Equal of hashable objects (slices of integers of any width, slices of hashable objects, nested in any way, and nil pointers of these types) returns, and is reflexive, symmetric and transitive, across all the types.", "quantifier": "all hashable objects of these types, of any nesting", "why_tests_cant": "objects can be nested without limit, and the claim is about all triples", "anchors": ["src/collection/hashable.go:HashableSlice.Equal", "src/collection/hashable.go:HashableByteSlice.Equal", "src/collection/hashable.go:HashableInt16Slice.Equal", "src/collection/hashable.go:HashableUint16Slice.Equal", "src/collection/hashable.go:HashableInt32Slice.Equal", "src/collection/hashable.go:HashableUint32Slice.Equal", "src/collection/hashable.go:HashableInt64Slice.Equal", "src/collection/hashable.go:HashableUint64Slice.Equal"]}
{"id": "C189", "title": "A hash map can be indexed by hashable objects", "statement": "A hash map whose keys are hashable objects without nil pointers in them, of all types mixed, behaves as a finite map in which keys are the same if they have the same type and content, and no call panics.", "quantifier": "all hash functions, all histories of calls, all such keys", "why_tests_cant": "keys, their nesting and histories are unlimited", "anchors": ["src/collection/hashable.go:IHashable", "src/collection/hashable.go:HashableSlice.HashUint32", "src/collection/hashable.go:HashableInt16Slice.HashUint32", "src/collection/hashable.go:HashableInt64Slice.HashUint32", "src/collection/hash_map.go:HashMap.Put"]}
{"id": "C190", "title": "A message is logged where the last call said", "statement": "After any sequence of calls of LCSetLoggerStdout and LCSetLoggerFileTmp (some of which may fail to open the file), every message logged is written to the destination of the last of the calls that returned nil, or to standard error if there was none.", "quantifier": "all sequences of calls and messages, and all choices of which calls can open the file", "why_tests_cant": "sequences of calls are unlimited, and a lost message is no error", "anchors": ["src/util/lc_util.go:LCSetLoggerStdout", "src/util/lc_util.go:LCSetLoggerFileTmp", "src/util/lc_util.go:log_file"]}
{"id": "C191", "title": "Objects made from bytes keep the promises of their interface", "statement": "An object made from bytes (a key, simple value, standard value or record) says after any sequence of calls that it is encoded and decoded, refuses to be encoded, can be decoded again with the same result, and keeps its content and its bytes.", "quantifier": "all byte strings shorter than 2^63, all four types, all sequences of calls of Decode, Encode, IsDecoded, IsEncoded, Buf, EstBufSize and the getters", "why_tests_cant": "bytes and sequences of calls are unlimited; decoding again works on a shorter buffer than the first time", "anchors": ["src/util/encodable.go:IEncodable", "src/util/key_util.go:MappedKey.Decode", "src/util/key_util.go:MappedKey.IsDecoded", "src/util/key_util.go:MappedKey.Encode", "src/util/value_util.go:SimpleMappedValue.Decode", "src/util/value_util.go:StandardMappedValue.Decode", "src/util/record_util.go:MappedRecord.Decode"]}
{"id": "C192", "title": "Records that share a key", "statement": "Several records and the program may refer to the same key object. Encode() of a record gives the bytes of what it contains then, with the sub keys its key has by now, and changes no other record; whenever IsEncoded() of a record is true, Buf() is the encoding of what it contains, also if sub keys were added to its key in the meantime; the copy of a record has a key of its own and keeps its content whatever happens to the original and its key.", "quantifier": "all programs of calls on keys and records in any order, all ways in which records share keys", "why_tests_cant": "whether a change of a key reaches a record depends on which calls came between, on which objects", "anchors": ["src/util/record_util.go:Record.SetKey", "src/util/record_util.go:Record.SetK", "src/util/record_util.go:Record.Encode", "src/util/record_util.go:Record.IsEncoded", "src/util/record_util.go:Record.Buf", "src/util/record_util.go:Record.Copy", "src/util/key_util.go:Key.Add", "src/util/key_util.go:Key.Encode"]}
{"id": "C193", "title": "A table built from keys answers the same for good", "statement": "MPHBuild returns an immutable table: what Lookup answers does not depend on what the program does with the keys afterwards (adding sub keys, encoding, handing them to records), Encode() of the table changes no key content and no answer and again gives the same bytes, and at any time the table that is saved and loaded again answers like the one in memory.", "quantifier": "all programs of calls on keys, records and tables before and after the build, all keys and probes, both ways of verification, every hash function of sub keys", "why_tests_cant": "whether a later change of a key reaches the table depends on which objects it shares and which calls came between", "anchors": ["src/util/mph_util.go:MPHBuild", "src/util/mph_util.go:MPHTable.Lookup", "src/util/mph_util.go:MPHTable.Encode", "src/util/mph_util.go:NewMPHTable", "src/util/key_util.go:Key.Add", "src/util/key_util.go:Key.Encode"]}
{"id": "C194", "title": "Tries keep the promises of encodable objects", "statement": "As the interface of encodable objects says: a constructed trie can be encoded (or reports an error) and then counts as encoded and has its bytes; it counts as decoded and refuses Decode. A loaded trie counts as encoded, refuses Encode, has the bytes it was made from, decodes again with the same result, and can be copied, also as a constructed trie. None of this depends on the calls made before.", "quantifier": "all histories of calls on a trie of either kind, all byte strings that load, all keys and values", "why_tests_cant": "what a call answers could depend on any history of other calls", "anchors": ["src/util/trie_util.go:Trie.Encode", "src/util/trie_util.go:Trie.Buf", "src/util/trie_util.go:Trie.IsEncoded", "src/util/trie_util.go:Trie.CopyConstruct", "src/util/trie_util.go:MappedTrie.Decode", "src/util/trie_util.go:MappedTrie.Copy", "src/util/trie_util.go:MappedTrie.CopyConstruct", "src/util/encodable.go:IEncodable"]}
{"id": "C195", "title": "Schemes keep the promises of encodable objects", "statement": "A scheme counts as encoded exactly if Encode was called and succeeded; then Buf is always the bytes of its parts, and SchemeMagic is 0; a failed Encode changes nothing; it counts as decoded and refuses Decode; its parts never change, BucketAt gives the bucket or panics for an index outside; its copy has the same parts, is not encoded, and answers every later call as a fresh scheme with these parts.", "quantifier": "all schemes, all histories of calls", "why_tests_cant": "what a call answers could depend on any history of other calls", "anchors": ["src/util/scheme_util.go:Scheme.Encode", "src/util/scheme_util.go:Scheme.Buf", "src/util/scheme_util.go:Scheme.IsEncoded", "src/util/scheme_util.go:Scheme.BucketAt", "src/util/scheme_util.go:Scheme.Copy", "src/util/encodable.go:IEncodable"]}
{"id": "C196", "title": "Copying a loaded trie node is harmless", "statement": "A loaded trie node can be copied; making the copy changes no node, the copy can be read like the original, and nodes can be loaded below the original as before.", "quantifier": "all sets of loaded nodes, all byte strings and offsets", "why_tests_cant": "the effect on other nodes depends on which nodes are linked", "anchors": ["src/util/trie_util.go:MappedTrieNode.Copy", "src/util/trie_util.go:MappedTrieNode.Decode", "src/util/trie_util.go:NewMappedTrieNode"]}
{"id": "C197", "title": "Decoded values while the buffer changes", "statement": "The elements of a decoded array or record list are those that were in the buffer when it was decoded, also if the program assigns bytes of the buffer before it asks for them. Whatever is assigned, an element that was returned once stays the same object with its bytes at the same place, and elements lie one after the other in the bytes of the array; assignments outside the slice handed to the decoder are never seen.", "quantifier": "all memories, all slices that decode as value or record, all programs of accesses (ValueAt, RecordAt, to any object) and assignments of bytes", "why_tests_cant": "what an access shows depends on the order of all earlier accesses and assignments", "anchors": ["src/util/value_util.go:StandardMappedValue.ValueAt", "src/util/value_util.go:StandardMappedValue.RecordAt", "src/util/value_util.go:NewStandardMappedValue", "src/util/record_util.go:NewMappedRecord"]}
{"id": "C198", "title": "Times and signatures of records do not change by themselves", "statement": "The time and signature that a record returns change only by its own SetTimestamp and SetSignature. A copy of a record, and the bytes of an encoded record, have the time and signature that the record had then. Whatever the program does, a program that changes no time or big integer in place sees no such change, a copy of a decoded record shows what the bytes of the record say, and the bytes of an encoded record stay until the record is set or encoded again.", "quantifier": "all programs that create and change times and big integers, create, decode, set, encode and copy records in any order, any record, any later program", "why_tests_cant": "which records share a time depends on the whole history of setters and copies, and a change may come at any later point", "anchors": ["src/util/record_util.go:Record.SetTimestamp", "src/util/record_util.go:Record.SetSignature", "src/util/record_util.go:Record.Copy", "src/util/record_util.go:Record.CopyConstruct", "src/util/record_util.go:MappedRecord.Copy", "src/util/record_util.go:MappedRecord.CopyConstruct", "src/util/record_util.go:Record.Encode"]}
{"id": "C199", "title": "The verification of a perfect hash cannot be foreseen", "statement": "The verification seed of a table built without keys is any number from 2^16 to 2^32 - 2, so that nobody can prepare a key that such a table takes for one of its own.", "quantifier": "all outputs of the random source, all keys, all tables", "why_tests_cant": "needs every output of the random source (2^64) and every key", "anchors": ["src/util/mph_util.go:MPHBuild", "src/util/mph_util.go:MPHTable.Lookup", "src/util/rand_util.go:RandUint64Range"]}
{"id": "C200", "title": "Several goroutines may read a decoded value at once", "statement": "Goroutines that only read the elements of a decoded value (ValueAt, RecordAt) do not disturb each other: there is no data race, every call ends and gives the element that the bytes encode, and calls for the same element give the same object.", "quantifier": "all buffers, all earlier calls, all numbers of goroutines, all calls and all interleavings of their single accesses to the shared elements", "why_tests_cant": "needs every interleaving of every number of goroutines; a test observes a few schedules", "anchors": ["src/util/value_util.go:StandardMappedValue.ValueAt", "src/util/value_util.go:StandardMappedValue.RecordAt"]}
{"id": "C201", "title": "A sorted map can be indexed by comparable objects", "statement": "A sorted map whose keys are comparable slices without anything nil, of any types, nested and mixed, behaves as a finite map in which keys are the same if they have the same type and content; no call panics, and iteration visits the keys in order.", "quantifier": "all histories of Put, Remove and Get, all such keys", "why_tests_cant": "keys, their nesting and histories are unlimited; which keys are compared depends on the shape of the tree and with it on the history", "anchors": ["src/collection/comparable.go:IComparable", "src/collection/comparable.go:ComparableSlice.Equal", "src/collection/comparable.go:ComparableSlice.Compare", "src/collection/comparable.go:ComparableInt32Slice.Compare", "src/collection/sorted_map.go:SortedMap", "src/collection/avl.go:putR", "src/collection/avl.go:removeR"]}
{"id": "C202", "title": "Keys and schemes are decoded exactly if they are well formed", "statement": "Decoding a key or a scheme succeeds exactly for the bytes of the documented layout (a number, then as many counted strings; for a scheme a leading byte, domain, tablet and such a list), gives the strings written there and consumes exactly their bytes; for all other bytes it returns an error.", "quantifier": "all buffers (up to 11 TB)", "why_tests_cant": "the set of malformed buffers is unlimited; tests try a few", "anchors": ["src/util/key_util.go:NewMappedKey", "src/util/key_util.go:MappedKey.Decode", "src/util/scheme_util.go:MappedScheme.Decode", "src/util/misc_util.go:DecodeVarchar", "src/util/misc_util.go:DecodeUvarint64"]}
{"id": "C203", "title": "Nil values are recognised", "statement": "IsNil says true for every nil value (a nil interface, pointer, map, channel, slice, function or unsafe pointer) and false for every other one.", "quantifier": "all values of all kinds", "why_tests_cant": "the kinds of values are many and tests try pointers and slices", "anchors": ["src/collection/util.go:IsNil"]}
{"id": "C204", "title": "Min and Max functions", "statement": "Each Min function returns the smaller and each Max function the greater of its two arguments as numbers, for all eight integer types.", "quantifier": "all pairs of integers of each type", "why_tests_cant": "2^128 pairs for the widest types", "anchors": ["src/collection/util.go:MinInt", "src/collection/util.go:MaxUint64"]}
{"id": "C205", "title": "Several goroutines may encode shared objects at once", "statement": "While no object is changed, goroutines may call Encode, Buf and IsEncoded at the same time on keys, values and records that share parts: there is no data race, every call ends, Encode gives what it gives alone and leaves the right bytes for good, and Buf and IsEncoded never show incomplete bytes.", "quantifier": "all structures of objects with shared parts, all numbers of goroutines, all calls and all interleavings of their single accesses to the shared fields", "why_tests_cant": "needs every interleaving of every number of goroutines; a test observes a few schedules", "anchors": ["src/util/key_util.go:Key.Encode", "src/util/key_util.go:Key.Buf", "src/util/value_util.go:Primitive.Encode", "src/util/value_util.go:ValueArray.Encode", "src/util/value_util.go:RecordList.Encode", "src/util/record_util.go:Record.Encode", "src/util/record_util.go:Record.Buf"]}
{"id": "C206", "title": "Calls with nil keys are refused", "statement": "A call on a sorted map with a key that is nil, nothing at all or a nil pointer, is refused: it has no effect on the map, and later calls with other keys return what they would have returned without it.", "quantifier": "all histories of calls, all keys that are nil in either way, all later calls", "why_tests_cant": "a test shows one nil key in one map; what happens depends on the types of all keys on the way and on what is called afterwards", "anchors": ["src/collection/avl.go:AVLTree.Get", "src/collection/avl.go:AVLTree.Put", "src/collection/avl.go:AVLTree.Remove", "src/collection/comparable.go:ComparableByteSlice.Equal", "src/collection/comparable.go:ComparableByteSlice.Compare", "src/collection/util.go:IsNil"]}
{"id": "C207", "title": "Times can be compared whatever the variables hold", "statement": "A comparison of two consensus times returns an answer or an error, also if a variable holds nothing or a nil pointer.", "quantifier": "all six comparisons, both kinds of times, all values, nothing and nil pointers on either side", "why_tests_cant": "a test shows some pairs of variables for some of the twelve methods", "anchors": ["src/util/consensus_util.go:LedgerTime.GT", "src/util/consensus_util.go:LedgerTime.LE", "src/util/consensus_util.go:RaftTime.GT", "src/util/consensus_util.go:RaftTime.EQ", "src/util/consensus_util.go:RaftTime.LE"]}
{"id": "C208", "title": "Lengths of Base58 texts", "statement": "The Base58 text of a byte string is at least as long as the string, and at most 1.38 times as long and one character more; no text of n bytes is longer than that of n bytes 255; 32 bytes give 32 to 44 characters. Decoding gives at most as many bytes as there are characters.", "quantifier": "all byte strings of all lengths, all texts", "why_tests_cant": "the bound is about all lengths and all contents, and follows from a comparison of powers of 256 and 58", "anchors": ["src/util/base58_util.go:Base58Encode", "src/util/base58_util.go:Base58Decode"]}
{"id": "C209", "title": "Encoded numbers sort like the numbers", "statement": "CompareByteSlice orders the encodings of 32-bit, 64-bit and 256-bit integers and of times like the integers and times, so that a sorted map with encoded times as keys is a map from times whose iterator goes forward in time.", "quantifier": "all pairs of integers and times of each kind, all histories of a map", "why_tests_cant": "a test compares some pairs; the order has to agree for all pairs and in every map", "anchors": ["src/collection/util.go:CompareByteSlice", "src/collection/util.go:TimeToBytes", "src/collection/util.go:Int64ToByteArray", "src/collection/util.go:Int32ToByteArray", "src/collection/util.go:Uint32ToByteArray", "src/collection/util.go:BigIntToByteArray", "src/collection/avl.go:AVLTree.Put"]}
{"id": "C210", "title": "A log with its end cut off is read up to the last complete item", "statement": "If encodings of byte strings, values, perfect hash tables or keys are written one after the other and the file is cut off anywhere, reading item by item gives exactly the items written completely, and ends with an error unless the cut is between two items.", "quantifier": "all sequences of items of a kind, all positions of the cut", "why_tests_cant": "needs all sequences and all positions; a test cuts a few files", "anchors": ["src/util/misc_util.go:DecodeVarchar", "src/util/misc_util.go:EncodeVarchar", "src/util/key_util.go:MappedKey.Decode", "src/util/value_util.go:StandardMappedValue.Decode", "src/util/mph_util.go:NewMPHTable"]}
{"id": "C211", "title": "Different values and records have different encodings", "statement": "Two values, or two records, are encoded to the same bytes only if they are the same; so a signature made over the encoding is for one content only. No encoding is the beginning of another one.", "quantifier": "all pairs of constructed values and records, nested in each other to any depth", "why_tests_cant": "injectivity is about all pairs of trees of any depth; a test compares a few", "anchors": ["src/util/value_util.go:Primitive.Encode", "src/util/value_util.go:ValueArray.Encode", "src/util/value_util.go:RecordList.Encode", "src/util/record_util.go:Record.Encode", "src/util/key_util.go:Key.Encode"]}
{"id": "C212", "title": "Nil keys of hash maps are refused", "statement": "Get, Put and Remove of a hash map with nil, or with a nil pointer, as key panic without any effect; no such key is ever stored; and leaving out these calls changes neither what the other calls return nor the map.", "quantifier": "all histories of calls with keys of all types, nil in every way or not, all initial capacities, all hash functions", "why_tests_cant": "needs all histories in which such calls are mixed with others; contrast sorted maps, which accept some nil pointers and never work again (C206)", "anchors": ["src/collection/hash_map.go:HashMap.Put", "src/collection/hash_map.go:HashMap.Get", "src/collection/hash_map.go:HashMap.Remove", "src/collection/hash.go:Hash.Put", "src/collection/hashable.go:HashableByteSlice.HashUint32", "src/collection/hashable.go:HashableSlice.HashUint32"]}
{"id": "C213", "title": "Iterators that have panicked", "statement": "When a call on an iterator of a sorted map or set panics and the program recovers, the iterator has not lost an entry: all later results are those of an iterator on which the panicking call had no effect. It never returns an entry again, and if the call was HasNext every later call panics.", "quantifier": "all trees, all bounds, all comparison functions (lawful or not, panicking anywhere), all sequences of calls", "why_tests_cant": "needs panics at every comparison of every walk through the tree", "anchors": ["src/collection/avl.go:AVLIterator.Next", "src/collection/avl.go:AVLIterator.HasNext", "src/collection/avl.go:AVLIterator.Peek", "src/collection/avl.go:AVLIterator.advance", "src/collection/sorted_map.go:SortedMapIterator.Next"]}
{"id": "C214", "title": "Ranges of composite keys", "statement": "An iterator of a sorted map with composite keys up to an end returns the entries with keys below the end in order, then reports the end, and depends only on the entries.", "quantifier": "all histories of the map, also with panics, all bounds, all sequences of calls on the iterator", "why_tests_cant": "which keys make the comparison with the end panic, and whether the walk meets them, depends on the shape of the tree", "anchors": ["src/collection/avl.go:AVLIterator.advance", "src/collection/sorted_map.go:SortedMap.RangeIterator", "src/util/key_util.go:Key.Compare", "src/util/key_util.go:MappedKey.Compare"]}
{"id": "C215", "title": "Ranges of byte string keys", "statement": "An iterator of a sorted map with byte strings as keys up to an end returns the entries with keys below the end in order, then reports the end.", "quantifier": "all histories of the map, also with panics, all ends, all sequences of calls on the iterator", "why_tests_cant": "whether HasNext panics at the end depends on which keys continue the end and, if the end is a key, on the shape of the tree", "anchors": ["src/collection/avl.go:AVLIterator.advance", "src/collection/sorted_map.go:SortedMap.RangeIterator", "src/collection/comparable.go:ComparableByteSlice.Compare"]}
{"id": "C216", "title": "Nil bounds of ranges", "statement": "A nil bound of a range iterator, nil pointers included, is no bound.", "quantifier": "all histories of the map, all ways in which a bound can be nil, all sequences of calls on the iterator", "why_tests_cant": "a nil pointer in an interface is not nil, and what a comparison with it gives depends on the side and on the type", "anchors": ["src/collection/avl.go:NewAVLIterator", "src/collection/avl.go:AVLIterator.advance", "src/collection/sorted_map.go:SortedMap.RangeIterator", "src/collection/comparable.go:ComparableByteSlice.Compare", "src/collection/comparable.go:ComparableSlice.Compare"]}
{"id": "C217", "title": "Perfect hash tables verified by key reject truncation", "statement": "Any strict prefix of an encoded perfect hash table that is verified by key is rejected by NewMPHTable.", "quantifier": "all tables built by MPHBuild from keys not changed after encoding, all positions at which the encoding is cut", "why_tests_cant": "tests cut at few positions of few tables; which cuts are not noticed depends on the bytes of the keys", "anchors": ["src/util/mph_util.go:NewMPHTable", "src/util/mph_util.go:MPHTable.Lookup", "src/util/key_util.go:NewMappedKey"]}
{"id": "C218", "title": "Encoded keys as keys of a sorted map", "statement": "The encodings of keys compare like the keys; a sorted map indexed by encoded keys is a map indexed by the keys, no call on it panics, and its iterator follows the order of the keys.", "quantifier": "all keys whose encoding succeeds, all histories of put and remove on the map, all sequences of calls on the iterator", "why_tests_cant": "which of two encodings is smaller depends on lengths that are multi byte numbers with their low bits first; small samples of short keys agree with the order of keys", "anchors": ["src/util/key_util.go:Key.Encode", "src/util/key_util.go:Key.Buf", "src/util/key_util.go:Key.Compare", "src/collection/util.go:CompareByteSlice", "src/collection/sorted_map.go:SortedMap"]}
{"id": "C219", "title": "A lookup in a hash map compares only keys of one bucket", "statement": "Get(k) calls Equal only for keys in the map whose hash falls into the bucket of k: once for each of them if k is not in the map, and at most that often otherwise; looking up all keys of the map once takes b(b+1)/2 comparisons for each bucket of b keys.", "quantifier": "all histories of put and remove, all key types with a lawful hash, all initial capacities and resize policies, all keys looked up", "why_tests_cant": "the number of comparisons depends on the whole history of resizes; tests check results, not comparisons", "anchors": ["src/collection/hash.go:Hash.Get", "src/collection/hash.go:Hash.resize", "src/collection/hash.go:Hash.Put"]}
{"id": "C220", "title": "The size of an encoded perfect hash", "statement": "A perfect hash of n keys verified by hash encodes into exactly 25 + 4(a + b + n) bytes, with a and b the powers of two the two levels are rounded up to: more than 8n and at most 14n + 33 bytes, whatever the keys are. Verified by key, it encodes into 21 + 4(a + b) bytes plus the encoded keys, at most 10n + 29 bytes besides the keys.", "quantifier": "all lists of keys for which the table is built, all seeds of the verification hash, all orders of the buckets", "why_tests_cant": "the size is a function of the number of keys for every list; tests encode a few tables", "anchors": ["src/util/mph_util.go:MPHBuild", "src/util/mph_util.go:MPHTable.Encode"]}
{"id": "C221", "title": "Lookups in a trie take logarithmic time per sub key", "statement": "Looking up a key in a trie compares sub keys at most twice log_phi(c + 1) times for every node with c children that the lookup comes through, and follows at most log_phi(c + 1) + 1 links there; so a key of l sub keys takes at most 2 l log_phi(m + 1) comparisons if no node has more than m children.", "quantifier": "all histories of calls on trie nodes, all nodes, all keys looked up", "why_tests_cant": "the shape of the trees of children depends on the whole history; tests check results, not the work done", "anchors": ["src/util/trie_util.go:Trie.Get", "src/util/trie_util.go:TrieNode.GetChild", "src/collection/avl.go"]}
{"id": "C222", "title": "Several goroutines may read sorted maps at once", "statement": "If several goroutines share sorted maps and, while they do so, only look up keys, ask for sizes, make iterators and use their own iterators, then the maps stay as they are, and every goroutine gets exactly the results it would get if it were alone; calls of the goroutines may come in any order.", "quantifier": "all states of the maps, all numbers of goroutines, all interleavings of their calls, all comparisons of keys", "why_tests_cant": "interleavings are unbounded, and a test with the race detector sees one of them", "anchors": ["src/collection/sorted_map.go:SortedMap.Get", "src/collection/sorted_map.go:SortedMap.Iterator", "src/collection/avl.go"]}
{"id": "C223", "title": "Unsigned random ranges are fair", "statement": "If the outcomes of the random source are equally likely, then the values of an unsigned random range are equally likely up to one outcome, and exactly so if and only if the size of the range is a power of two; every seed of a hash table, and so every hash of a key, is equally likely.", "quantifier": "all widths, all ranges, all values of the range, all seeds, all byte strings hashed", "why_tests_cant": "a distribution is about all outcomes of the source together; a test draws samples", "anchors": ["src/util/rand_util.go:RandUint8Range", "src/util/rand_util.go:RandUint16Range", "src/util/rand_util.go:RandUint32Range", "src/util/rand_util.go:RandUint64Range", "src/collection/util.go:randUint32", "src/collection/hash.go:NewCustomHash"]}
{"id": "C224", "title": "Signed random ranges are fair", "statement": "If the outcomes of the random source are equally likely, then the values of a signed random range are equally likely up to one outcome.", "quantifier": "all widths, all ranges, all values of the range", "why_tests_cant": "a distribution is about all outcomes of the source together; a test draws samples", "anchors": ["src/util/rand_util.go:RandInt8Range", "src/util/rand_util.go:RandInt16Range", "src/util/rand_util.go:RandInt32Range", "src/util/rand_util.go:RandInt64Range"]}
{"id": "C225", "title": "The key generator changes only what belongs to the key it makes", "statement": "However a run of the key generator ends, also if it is interrupted or an operation fails, everything it has changed in the file system is in the directory of the class that was named: the key's own directory and two files, the alias asked for, and missing parent directories. A name that is no class changes nothing.", "quantifier": "all class names, aliases, passphrases, keys, faults, file systems, and points of interruption", "why_tests_cant": "a test sees some aliases and some faults, and only the places it looks at", "anchors": ["src/main/pkeygen.go:main", "src/main/pkeygen.go:process_key", "src/util/lc_util.go:LCSaveKeyPairPrompt"]}
{"id": "C226", "title": "Nodes and domains do not get in each other's way", "statement": "The configuration, log, library, transaction and domain directories of nodes are apart: one is inside another only if it is the same one, or the other is the library directory of the same node; and the configuration of a node is not a key file.", "quantifier": "all node identifiers, all domain names, all pairs of places", "why_tests_cant": "there are infinitely many names; a test tries harmless ones", "anchors": ["src/util/lc_util.go:lc_get_node_conf_path", "src/util/lc_util.go:lc_get_lib_dir", "src/util/lc_util.go:lc_get_transaction_log_dir", "src/util/lc_util.go:lc_get_domain_dir", "src/util/lc_util.go:lc_get_log_dir", "src/util/const_util.go:DEFAULT_LIB_DIR"]}
{"id": "C227", "title": "A key that exists can be loaded", "statement": "At every point of saving a key pair where there was none, a key that is reported to exist loads; a key that loads is reported to exist; the public key appears only after the private key is complete; saving a public key alone affects no other key.", "quantifier": "all classes, identifiers, keys, secrets, file contents, write failures, and points of interruption", "why_tests_cant": "a test does not stop the program inside a write", "anchors": ["src/util/lc_util.go:LCExistPubKey", "src/util/lc_util.go:LCExistPrivKey", "src/util/lc_util.go:lc_save_pub_key", "src/util/lc_util.go:lc_save_key_pair"]}
{"id": "C228", "title": "The magic byte tells what is there", "statement": "RecordMagic and ValueMagic return the first byte of the encoding; 0xff is returned only by objects that are not encoded or decoded; the bits of the magic of a record say whether it has a timestamp and a signature.", "quantifier": "all byte strings that load as records, all records made by the program, all primitive values", "why_tests_cant": "there are 256 magic bytes with arbitrary bytes behind them; a test encodes ordinary records", "anchors": ["src/util/record_util.go:MappedRecord.RecordMagic", "src/util/record_util.go:Record.RecordMagic", "src/util/value_util.go:SimpleMappedValue.ValueMagic", "src/util/value_util.go:StandardMappedValue.ValueMagic", "src/util/value_util.go:Primitive.ValueMagic"]}
{"id": "C229", "title": "Loaded nodes find the nodes loaded below them", "statement": "After any history of loading nodes one by one, of decoding and copying them again, and of entries in the table of known nodes, GetChild of a loaded node returns the node last loaded under that key below it, Children and ChildSize agree with it, and calls that are not supported report an error and change nothing.", "quantifier": "all histories of calls on loaded nodes, all byte strings, keys and offsets", "why_tests_cant": "what a node has as children depends on the whole history of loads into a shared table; tests load a few well-formed nodes", "anchors": ["src/util/trie_util.go:NewMappedTrieNode", "src/util/trie_util.go:MappedTrieNode.Decode", "src/util/trie_util.go:MappedTrieNode.GetChild", "src/util/trie_util.go:MappedTrieNode.Children", "src/util/trie_util.go:MappedTrieNode.Copy"]}
{"id": "C230", "title": "Hash maps are independent of each other", "statement": "In a program that uses any number of hash maps and iterators, every Get, Put, Remove and Size returns what it would return if each map were a separate finite map: calls on other maps and the use of iterators make no difference, and no call panics or runs forever. This holds although buckets are linked nodes that are changed in place, copied when a map is resized, and taken out of the middle of a list when a key is removed.", "quantifier": "all programs over any number of maps and iterators, all key types with a proper equality and hash, all seeds (a different one for each map), all capacities below 2^32, all settings for resizing that keep arrays below 2^32 buckets", "why_tests_cant": "aliasing between nodes of different maps or buckets depends on the whole history of insertions, removals and resizings", "anchors": ["src/collection/hash.go:Hash.Put", "src/collection/hash.go:Hash.Remove", "src/collection/hash.go:Hash.resize", "src/collection/hash_map.go:HashMap"]}
{"id": "C231", "title": "No key can damage the structure of a hash map", "statement": "Whatever keys answer when they are compared or hashed, even differently in each call, and however maps are resized: every bucket of every hash map stays a list of nodes that ends, no node is in two buckets or in two maps, Size is the number of nodes, and every later call returns (no loop runs forever), as long as arrays have fewer than 2^32 buckets.", "quantifier": "all programs, all answers of Equal and HashUint32 in each call, all settings for resizing", "why_tests_cant": "arbitrary inconsistent keys, all histories; a loop that never ends shows only for particular links", "anchors": ["src/collection/hash.go:Hash.Get", "src/collection/hash.go:Hash.Put", "src/collection/hash.go:Hash.Remove", "src/collection/hash.go:Hash.resize"]}
{"id": "C232", "title": "Several goroutines may read hash maps at once", "statement": "If several goroutines share hash maps and, while they do so, only look up keys, ask for sizes, make iterators and use their own iterators, then the maps stay as they are, and every goroutine gets exactly the results it would get if it were alone; a call fails to return only if it does so alone.", "quantifier": "all states of the maps, all numbers of goroutines, all interleavings of their calls, all answers of the keys", "why_tests_cant": "interleavings are unbounded, and a test with the race detector sees one of them", "anchors": ["src/collection/hash.go:Hash.Get", "src/collection/hash.go:HashIterator", "src/collection/hash_map.go:HashMap.Get"]}
{"id": "C233", "title": "One or two wrong bits in a key file are always noticed", "statement": "If any one bit, or any two different bits, of the content of an acceptable key file are changed, anywhere in the key or in its checksum, loading the file reports an error, for contents of less than 2^29 bytes.", "quantifier": "all acceptable files of less than 2^29 bytes of content, all pairs of positions", "why_tests_cant": "the pairs of positions grow with the square of the length of the file, and the guarantee rests on the period of the checksum being 2^32-1", "anchors": ["src/util/lc_util.go:lc_load_key_data", "src/util/lc_util.go:LCSaveKeyPair"]}
{"id": "C234", "title": "Typing errors in a key file never give another key", "statement": "If up to seven adjacent characters of an acceptable key file are replaced by others, or two neighbouring characters are swapped, or a character is inserted or left out anywhere (such as the end of a line at the end of the file), loading reports an error, unless the file still denotes the same bytes because only the case of letters changed; then the same key is loaded.", "quantifier": "all acceptable files, all positions, all replacements of up to seven characters, all inserted characters", "why_tests_cant": "all files, positions and replacements; with eight characters there is an exception that no test finds by chance", "anchors": ["src/util/lc_util.go:lc_load_key_data", "src/util/lc_util.go:LCSaveKeyPair"]}
