{"id": "C01", "title": "Event serialization is injective", "statement": "Two events for which Serialize() returns the same bytes have the same PubKey, CreatedAt, Kind, Tags and Content; hence, short of a SHA-256 collision, an event id pins down every signed field.", "quantifier": "all pairs of events, with arbitrary bytes in every string and arbitrary tag shapes", "why_tests_cant": "Ambiguity hides in pairs of adversarial strings (quotes, backslashes, brackets inside tags, an unescaped pubkey); sampling pairs cannot show that no colliding pair exists.", "anchors": ["event.go: Event.Serialize, serializeEventInto", "helpers.go: escapeString"]}
{"id": "C02", "title": "Escaped strings decode to the original", "statement": "For every byte string s, the literal written for s in the serialization is one complete RFC 8259 string token, and decoding that token with an independent JSON string decoder yields exactly s.", "quantifier": "all byte strings of every length", "why_tests_cant": "There are 256 byte values in unbounded positions; the code has one branch per control-character range, so a wrong offset in one range only shows on that byte.", "anchors": ["helpers.go: escapeString"]}
{"id": "C03", "title": "CheckID accepts exactly the computed id", "statement": "CheckID() is true iff ID equals GetID(), i.e. the 64-character lowercase hex of the SHA-256 of Serialize(); it never reads past the end of ID, whatever ID contains.", "quantifier": "all events, all ID strings, every 32-byte hash function", "why_tests_cant": "The hand-rolled nibble comparison must agree with hex encoding for every digest and every candidate string, including wrong lengths and upper-case hex.", "anchors": ["event.go: Event.CheckID, Event.GetID"]}
{"id": "C04", "title": "A signed event verifies", "statement": "If Sign(sk) returns nil then afterwards PubKey is the public key of sk, CheckID() is true and CheckSignature() returns (true, nil); no field but PubKey, ID and Sig is changed (nil Tags become empty, which serializes the same).", "quantifier": "all events and secret keys, every signature scheme satisfying the sign/verify contract", "why_tests_cant": "Depends on field update order inside Sign (pubkey before hashing) for every event.", "anchors": ["signature.go: Event.Sign, Event.CheckSignature", "event.go: Event.GetID"]}
{"id": "C05", "title": "A valid signature authenticates every signed field", "statement": "If CheckSignature() accepts an event, the signature is valid for the hash of that event's own serialization under its own PubKey: two events with equal PubKey and Sig that both verify under a scheme where a signature determines the message hash agree on CreatedAt, Kind, Tags and Content. The ID field, however, is not covered.", "quantifier": "all events, all tamperings of any field", "why_tests_cant": "Tamper tests flip a few fields of a few events; the claim is that no modification of any field survives.", "anchors": ["signature.go: Event.CheckSignature"]}
{"id": "C06", "title": "Filter.Matches decides NIP-01 matching", "statement": "Matches(event) holds iff every present condition holds: ID in ids, Kind in kinds, PubKey in authors, for every tag condition some tag with that name and at least one value whose first value is listed, and since <= CreatedAt <= until. A nil list is no condition; a non-nil empty list matches nothing; a nil event never matches.", "quantifier": "all filters (nil versus empty lists, any number of tag conditions) and all events", "why_tests_cant": "The combination space of optional conditions times event shapes is unbounded.", "anchors": ["filter.go: Filter.Matches, Filter.MatchesIgnoringTimestampConstraints", "tags.go: Tags.ContainsAny"]}
{"id": "C07", "title": "Filter lists are a disjunction", "statement": "Filters.Match(event) holds iff some filter in the list matches; it is invariant under permutation and duplication of filters, false for the empty list; ignoring timestamps it is implied by Match and differs only by the since/until test.", "quantifier": "all lists of filters and all events", "why_tests_cant": "Unbounded lists; early return must not skip later filters.", "anchors": ["filter.go: Filters.Match, Filters.MatchIgnoringTimestampConstraints"]}
{"id": "C08", "title": "FilterEqual is an equivalence that respects matching", "statement": "FilterEqual is reflexive, symmetric and transitive, and equal filters match exactly the same events.", "quantifier": "all pairs and triples of filters", "why_tests_cant": "Needs all pairs; the failure needs duplicated entries or nil versus empty lists that hand-written examples do not contain.", "anchors": ["filter.go: FilterEqual", "helpers.go: similar, arePointerValuesEqual"]}
{"id": "C09", "title": "Filter.Clone is an equal, independent copy", "statement": "Clone() is field-for-field equal to the original (nil stays nil), FilterEqual accepts it, and later writes through any slice, map or pointer of one are never visible through the other.", "quantifier": "all filters and all later in-place mutations", "why_tests_cant": "Aliasing shows only under a later write through the shared part; tests would need to write every field of every shape.", "anchors": ["filter.go: Filter.Clone"]}
{"id": "C10", "title": "GetTheoreticalLimit bounds every conforming result", "statement": "When GetTheoreticalLimit(f) is n >= 0, every set of events a conforming relay may hold (unique ids; at most one event per (pubkey, kind) for replaceable kinds and per (pubkey, kind, d) for addressable kinds) contains at most n events matching f.", "quantifier": "all filters and all finite stores meeting the NIP-01 uniqueness rules", "why_tests_cant": "A counting bound over arbitrary stores.", "anchors": ["filter.go: GetTheoreticalLimit", "kinds.go: IsReplaceableKind, IsAddressableKind"]}
{"id": "C11", "title": "Kind classes partition the kind space", "statement": "Every kind in 0..39999 is exactly one of regular, replaceable, ephemeral, addressable, with the NIP-01 ranges; the behaviour outside that range is stated exactly.", "quantifier": "all integer kinds", "why_tests_cant": "Boundaries of four predicates must line up for every integer.", "anchors": ["kinds.go: IsRegularKind, IsReplaceableKind, IsEphemeralKind, IsAddressableKind"]}
{"id": "C12", "title": "Tag lookups return the right tag", "statement": "Find/FindLast/FindWithValue/FindLastWithValue return the first/last tag in order having the key (and value) and at least two items, or nil iff there is none; FindAll yields exactly those tags in order; GetD is the value of the first d tag with a value, or empty.", "quantifier": "all tag lists (including empty tags and one-element tags)", "why_tests_cant": "Quantifies over all tag list shapes.", "anchors": ["tags.go: Tags.Find, FindAll, FindLast, FindWithValue, FindLastWithValue, GetD"]}
{"id": "C13", "title": "Prefix-based tag operations keep the other tags", "statement": "FilterOut removes exactly the tags starting with the prefix and keeps order; FilterOutInPlace leaves exactly the same multiset of tags as FilterOut; AppendUnique never drops a tag and afterwards the key/value is present; none of them panics.", "quantifier": "all tag lists and prefixes", "why_tests_cant": "The in-place version swaps elements while iterating; index errors show only on certain match patterns.", "anchors": ["tags.go: Tag.StartsWith, Tags.FilterOut, Tags.FilterOutInPlace, Tags.AppendUnique, Tags.GetFirst, Tags.GetLast, Tags.GetAll"]}
{"id": "C14", "title": "Tag cloning copies the tags", "statement": "Tags.Clone, Tags.CloneDeep and Tag.Clone return a value equal to the receiver.", "quantifier": "all tags", "why_tests_cant": "For all inputs; (the code returns nil for every non-empty input, which no test in the repo exercises).", "anchors": ["tags.go: Tags.Clone, Tags.CloneDeep, Tag.Clone"]}
{"id": "C15", "title": "Event comparators are consistent total orders for sorting", "statement": "CompareEvent orders by CreatedAt then by ID, is antisymmetric and transitive, the Reverse/Ptr variants agree with it (nil last or first consistently), so slices.SortFunc results are well defined.", "quantifier": "all pairs and triples of events and nil pointers", "why_tests_cant": "Strict-weak-order violations only show on particular triples.", "anchors": ["utils.go: CompareEvent, CompareEventReverse, CompareEventPtr, CompareEventPtrReverse"]}
{"id": "C16", "title": "A subscription id resolves to its own subscription", "statement": "For every counter value and label, the id sent to the relay maps back to that counter, and ids of different counters never collide, so a relay message is dispatched only to the subscription it names; strings without a colon map to -1 which is never a counter.", "quantifier": "all non-negative 64-bit counters and all labels (including labels containing colons, digits or quotes)", "why_tests_cant": "2^63 counters times arbitrary labels.", "anchors": ["relay.go: Relay.PrepareSubscription", "helpers.go: subIdToSerial"]}
{"id": "C17", "title": "The pre-parser never crashes the reader", "statement": "extractSubID, extractEventID, extractEventPubKey, extractDTag and extractTimestamp return normally on every message a relay can send.", "quantifier": "all byte strings", "why_tests_cant": "A crash needs a specific malformed message; the relay is untrusted, so the quantifier is over all strings.", "anchors": ["helpers.go: extractSubID, extractEventID, extractEventPubKey, extractDTag, extractTimestamp", "relay.go: Relay.ConnectWithTLS reader loop"]}
{"id": "C18", "title": "The pre-parser agrees with the parsed event", "statement": "On every well-formed EVENT message, the id, pubkey, d tag and timestamp the pre-parser extracts equal those of the event obtained by full parsing, so duplicate suppression is decided on the right key.", "quantifier": "all events and all relay-chosen JSON layouts (key order, whitespace)", "why_tests_cant": "Substring search can hit look-alike text in content or tags; only a universally quantified statement excludes that.", "anchors": ["helpers.go: extract*", "relay.go: reader loop"]}
{"id": "C19", "title": "Hex validation accepts exactly 32-byte lowercase hex", "statement": "IsValid32ByteHex / IsValidPublicKey accept a string iff it is 64 characters, all in [0-9a-f] (and, for keys, names a curve point as decided by the external library).", "quantifier": "all strings", "why_tests_cant": "All 256^n strings; boundary characters around 0-9 and a-f.", "anchors": ["utils.go: IsValid32ByteHex", "keys.go: IsValidPublicKey", "helpers.go: isLowerHex"]}
{"id": "C20", "title": "NormalizeOKMessage is idempotent and always yields a machine-readable prefix", "statement": "The result always contains a prefix followed by a colon; applying the function again changes nothing.", "quantifier": "all reasons and prefixes", "why_tests_cant": "All strings.", "anchors": ["normalize.go: NormalizeOKMessage"]}
{"id": "C21", "title": "Event JSON round trip", "statement": "Parsing the JSON written for an event gives back the same ID, PubKey, CreatedAt, Kind, Tags, Content and Sig (for valid UTF-8 strings).", "quantifier": "all events with valid UTF-8 strings", "why_tests_cant": "Unbounded strings and tags; escaping differs from the serialization's.", "anchors": ["event_easyjson.go: MarshalEasyJSON, UnmarshalEasyJSON"]}
{"id": "C22", "title": "Filter JSON round trip preserves meaning", "statement": "A filter sent in a REQ and parsed by the receiver matches the same events as the original and carries the same limit.", "quantifier": "all filters", "why_tests_cant": "Unbounded; the failure involves empty-but-present lists and odd tag names.", "anchors": ["filter_easyjson.go"]}
{"id": "C23", "title": "Envelopes round trip", "statement": "For each client/relay message type, parsing the marshalled message yields an envelope of the same type with equal contents.", "quantifier": "all envelopes of every type (EVENT, REQ, COUNT, NOTICE, EOSE, CLOSE, CLOSED, OK, AUTH)", "why_tests_cant": "Unbounded contents; label dispatch must be unambiguous.", "anchors": ["envelopes.go", "envelopes_default.go: ParseMessage"]}
{"id": "C24", "title": "Only matching, authentic events of that subscription are delivered", "statement": "Every event received on Subscription.Events came in an EVENT message naming that subscription, matched its filters (all constraints before EOSE, all but since/until after), and had a valid signature unless the relay is AssumeValid.", "quantifier": "all relay message sequences and all schedules of the dispatch goroutines", "why_tests_cant": "Relay is adversarial and delivery is asynchronous; schedules are unbounded.", "anchors": ["relay.go: reader loop", "subscription.go: dispatchEvent"]}
{"id": "C25", "title": "No event is delivered twice or invented", "statement": "The events delivered on a subscription are a sub-multiset of the accepted EVENT messages: each accepted message is delivered at most once, and while the subscription is live and its context uncancelled none is dropped.", "quantifier": "all message sequences and schedules", "why_tests_cant": "Schedules of one goroutine per event.", "anchors": ["subscription.go: dispatchEvent"]}
{"id": "C26", "title": "EOSE is signalled once, after all stored events", "statement": "EndOfStoredEvents is signalled at most once per subscription however many EOSE messages arrive, and only after every event accepted before the EOSE has been handed over or dropped because the subscription ended.", "quantifier": "all message sequences and schedules", "why_tests_cant": "A race between the EOSE goroutine and the event goroutines; needs all interleavings.", "anchors": ["subscription.go: dispatchEvent, dispatchEose"]}
{"id": "C27", "title": "Events is closed exactly once and never written after", "statement": "When the subscription ends its Events channel is closed exactly once, no goroutine ever sends on it afterwards and none of them is left blocked on it.", "quantifier": "all schedules of unsub, context cancellation, CLOSED handling, dispatch and Fire", "why_tests_cant": "Send on closed channel panics only under a rare interleaving.", "anchors": ["subscription.go: start, unsub, dispatchEvent, handleClosed, Fire"]}
{"id": "C28", "title": "CLOSE is sent at most once, and not after CLOSED", "statement": "However many of Unsub, context cancellation, relay disconnection and CLOSED happen, in any order, at most one CLOSE per Fire is written, none after a CLOSED has been processed, and the subscription is removed from the relay's table.", "quantifier": "all schedules and histories", "why_tests_cant": "Concurrent callers; all interleavings.", "anchors": ["subscription.go: unsub, handleClosed, Close", "relay.go: writer loop defer"]}
{"id": "C29", "title": "Publish reports success only on an accepting OK", "statement": "Relay.Publish returns nil only if the relay answered OK true for that event id; an OK false yields an error carrying the reason; otherwise a timeout or connection error is returned.", "quantifier": "all schedules of OK messages, timeouts, disconnections and concurrent publishes", "why_tests_cant": "Race between three completion causes; failure needs a particular ordering.", "anchors": ["relay.go: Relay.publish"]}
{"id": "C30", "title": "Concurrent publishes do not steal each other's OK", "statement": "An OK for one event id completes only the Publish calls for that id, and every pending Publish whose OK arrives completes.", "quantifier": "all sets of concurrent publishes and OK orders", "why_tests_cant": "Interleavings of store/delete on the callback table.", "anchors": ["relay.go: Relay.publish"]}
{"id": "C31", "title": "A failed Subscribe leaves nothing behind", "statement": "If Subscribe or Count returns an error, the subscription is not left registered in the relay's table once its internal goroutines have run.", "quantifier": "all connection states and filters", "why_tests_cant": "Leak needs the not-connected branch; no test observes the table.", "anchors": ["relay.go: Subscribe, PrepareSubscription, countInternal", "subscription.go: Fire"]}
{"id": "C32", "title": "FetchMany emits each event at most once", "statement": "However many relays return an event and however often, FetchMany/SubManyEose/BatchedSubManyEose emit at most one event per id (ids truthful), and every id that some relay delivered validly is emitted unless the caller cancels.", "quantifier": "all relay sets, message sequences and schedules", "why_tests_cant": "Concurrent map access from several reader goroutines.", "anchors": ["pool.go: SubManyEose, subManyEoseNonOverwriteCheckDuplicate, BatchedSubManyEose"]}
{"id": "C33", "title": "FetchMany's channel is closed exactly once, after everything was emitted", "statement": "The returned channel is closed exactly once when every relay has finished (EOSE, CLOSED, failure, cancellation), nothing is sent afterwards, and it is closed immediately for an empty relay list.", "quantifier": "all schedules, any number of relays", "why_tests_cant": "WaitGroup discipline over all interleavings.", "anchors": ["pool.go: subManyEoseNonOverwriteCheckDuplicate"]}
{"id": "C34", "title": "FetchManyReplaceable returns the newest version", "statement": "For each (pubkey, d) the returned map holds the newest of all versions that the relays delivered.", "quantifier": "all delivery orders from all relays", "why_tests_cant": "Order dependence; failing order needs older-after-newer across relays.", "anchors": ["pool.go: FetchManyReplaceable"]}
{"id": "C35", "title": "SubscribeMany ends cleanly when all relays are done", "statement": "When every relay of the call has returned CLOSED or the context is cancelled, the event channel is closed exactly once.", "quantifier": "all url lists (with duplicates) and schedules", "why_tests_cant": "Needs particular duplicate lists and interleavings of decrement and test.", "anchors": ["pool.go: subMany"]}
{"id": "C36", "title": "The EOSE notification fires once, after all relays", "statement": "With SubscribeManyNotifyEOSE the given channel is closed exactly once, and only after each distinct relay has signalled EOSE or terminated, across any number of reconnections.", "quantifier": "all schedules, url lists and reconnection histories", "why_tests_cant": "Reconnection can replay EOSE; all histories needed.", "anchors": ["pool.go: subMany"]}
{"id": "C37", "title": "PublishMany yields exactly one result per url", "statement": "PublishMany emits exactly one PublishResult for each element of urls and then closes the channel, never blocking a worker even if the caller stops reading.", "quantifier": "all url lists and all outcomes (connect failure, OK, rejection, auth success/failure)", "why_tests_cant": "Every branch must send exactly once.", "anchors": ["pool.go: PublishMany"]}
{"id": "C38", "title": "Authentication is attempted at most once per subscription attempt", "statement": "For each relay in a FetchMany call AUTH is performed successfully at most once however often the relay answers auth-required, and the subscription is retried exactly once per successful AUTH.", "quantifier": "all sequences of CLOSED reasons", "why_tests_cant": "Unbounded relay behaviours.", "anchors": ["pool.go: subManyEoseNonOverwriteCheckDuplicate, FetchManyReplaceable, subMany"]}
{"id": "C39", "title": "A failing relay is penalised", "statement": "With WithPenaltyBox, after a failed connection EnsureRelay refuses to reconnect to that relay until the penalty has elapsed, and the penalty grows with consecutive failures.", "quantifier": "all histories of connection attempts and ticks", "why_tests_cant": "Needs histories; failure is that the box is never consulted.", "anchors": ["pool.go: EnsureRelay, withPenaltyBoxOpt.ApplyPoolOption"]}
{"id": "C40", "title": "EnsureRelay keeps one live connection per normalized url", "statement": "At any time the pool's table maps each normalized url to at most one relay; a connected relay is returned without dialing again; a disconnected one is replaced.", "quantifier": "all histories of calls and disconnections", "why_tests_cant": "Histories.", "anchors": ["pool.go: EnsureRelay", "helpers.go: namedLock"]}
{"id": "C41", "title": "Reconnection backoff is bounded and grows", "statement": "The wait between reconnection attempts starts at 3s, never decreases until a successful subscription, never exceeds 5 minutes and reaches 5 minutes.", "quantifier": "any number of consecutive failures", "why_tests_cant": "Unbounded iteration with integer rounding.", "anchors": ["pool.go: subMany"]}
{"id": "C42", "title": "Paginator returns every event in range once, up to the limit", "statement": "PaginatorWithInterval emits no event twice, at most Limit events, and all events relays hold within the range when relays answer with their newest events first.", "quantifier": "all stores, page sizes and event timestamps (including ties)", "why_tests_cant": "Failure needs more than one page with particular id/time patterns and slice aliasing.", "anchors": ["paginator.go: PaginatorWithInterval"]}
{"id": "C43", "title": "CountMany merges like a union", "statement": "The count CountMany returns depends only on the set of valid HLL answers, not on their order or multiplicity.", "quantifier": "all answer multisets and merge orders", "why_tests_cant": "All orders.", "anchors": ["pool.go: CountMany", "nip45/hyperloglog/hll.go: MergeRegisters"]}
{"id": "C44", "title": "Negentropy varint round trip", "statement": "Decoding the encoding of any n below 2^56 gives back n and consumes exactly the encoded bytes whatever follows; larger values are rejected loudly rather than mis-encoded.", "quantifier": "all natural numbers / 64-bit ints, all suffixes", "why_tests_cant": "2^63 values; carry bits.", "anchors": ["nip77/negentropy/encoding.go: ReadVarInt/EncodeVarInt"]}
{"id": "C45", "title": "Negentropy bounds and timestamps round trip", "statement": "For every sequence of bounds with non-decreasing timestamps, a decoder that starts from the same state reads back exactly the written bounds, including infinity and empty id prefixes.", "quantifier": "all bound sequences of any length", "why_tests_cant": "Delta coding is stateful over unbounded sequences.", "anchors": ["nip77/negentropy/encoding.go, types.go, negentropy.go"]}
{"id": "C46", "title": "Minimal bound separates neighbours", "statement": "The bound chosen between two adjacent items is strictly greater than the left item and not greater than the right one, so both sides of the protocol split at the same place.", "quantifier": "all ordered pairs of items (equal or different timestamps, any common id prefix length)", "why_tests_cant": "Failure needs ids sharing more than half their prefix.", "anchors": ["nip77/negentropy/negentropy.go: getMinimalBound"]}
{"id": "C47", "title": "Fingerprint accumulator adds modulo 2^256", "statement": "Accumulating ids computes their sum modulo 2^256, independent of order, so equal sets have equal fingerprints.", "quantifier": "all sequences of 32-byte ids", "why_tests_cant": "Carry propagation corner cases have probability ~2^-32 per limb.", "anchors": ["nip77/negentropy/storage/accumulator.go: AddBytes/AddAccumulator"]}
{"id": "C48", "title": "FindLowerBound returns the insertion point", "statement": "On a sealed vector, FindLowerBound(begin,end,bound) returns the first index whose item is not below the bound.", "quantifier": "all sorted vectors and bounds", "why_tests_cant": "Binary search boundaries for all sizes.", "anchors": ["nip77/negentropy/storage/vector/vector.go: FindLowerBound, Seal, Insert"]}
{"id": "C49", "title": "SplitRange covers the range without gaps or overlaps", "statement": "The ranges emitted by splitting partition exactly the items of the split range, whatever their number.", "quantifier": "all sorted item lists", "why_tests_cant": "Bucket arithmetic for all sizes (remainder distribution).", "anchors": ["nip77/negentropy/negentropy.go: SplitRange"]}
{"id": "C50", "title": "Reconciliation finds exactly the differences", "statement": "When a client and a server run the protocol to completion (fingerprints collision-free), the ids reported as Haves are those the client has and the server lacks and HaveNots the converse, each reported once.", "quantifier": "all pairs of sets, any number of rounds, any frame size limit accepted", "why_tests_cant": "Needs all set pairs and all message exchanges.", "anchors": ["nip77/negentropy/negentropy.go: Reconcile, reconcileAux"]}
{"id": "C51", "title": "bech32 round trip", "statement": "For every lowercase prefix without invalid characters and every 5-bit data, bech32 decode(encode(hrp,data)) = (hrp,data), and 8-to-5-to-8 bit regrouping is the identity on bytes.", "quantifier": "all prefixes and data of any length", "why_tests_cant": "Unbounded data; checksum is linear over GF(32).", "anchors": ["nip19/nip19.go", "external bech32 (btcutil) as used"]}
{"id": "C52", "title": "npub/nsec/note codes round trip", "statement": "Decode(EncodeX(h)) returns the prefix and h for every 64-character lowercase hex string h, and encoding rejects everything that is not hex.", "quantifier": "all 2^256 keys/ids", "why_tests_cant": "2^256 inputs.", "anchors": ["nip19/nip19.go: EncodePrivateKey, EncodePublicKey, EncodeNote, Decode"]}
{"id": "C53", "title": "nprofile/nevent/naddr codes round trip", "statement": "Decoding an encoded pointer returns the same id/pubkey/identifier/kind/author and relays, for all pointers the format can carry.", "quantifier": "all pointers (any number of relays, any identifier)", "why_tests_cant": "Unbounded TLV sequences; length byte overflow at 256.", "anchors": ["nip19/nip19.go: EncodeProfile, EncodeEvent, EncodeEntity, Decode", "nip19/utils.go: writeTLVEntry, readTLVEntry"]}
{"id": "C54", "title": "nip19.Decode never panics", "statement": "Decode returns a value or an error on every input string.", "quantifier": "all strings", "why_tests_cant": "Crash needs a valid checksum around a malformed payload.", "anchors": ["nip19/nip19.go: Decode"]}
{"id": "C55", "title": "NIP-44 padding round trip", "statement": "For every plaintext of 1..65535 bytes, unpadding the padded text returns it; the padded length depends only on the length, is at least the plaintext length and follows the NIP-44 bucket rule; other sizes are rejected.", "quantifier": "all plaintexts", "why_tests_cant": "All lengths up to 65535 and all contents.", "anchors": ["nip44/nip44.go: calcPadding, Encrypt, Decrypt"]}
{"id": "C56", "title": "NIP-44 encrypt/decrypt round trip", "statement": "Decrypt(Encrypt(m,k),k) = m for every plaintext of permitted size, key and nonce, including through base64; different sizes fail with an error.", "quantifier": "all keys, nonces and plaintexts", "why_tests_cant": "Unbounded; length checks in Decrypt must accept every length Encrypt can produce.", "anchors": ["nip44/nip44.go: Encrypt, Decrypt"]}
{"id": "C57", "title": "NIP-44 rejects tampered or malformed payloads", "statement": "Decrypt returns an error (never a plaintext, never a panic) when version, nonce, ciphertext or MAC was altered or the payload has a wrong shape, unless the altered message's MAC verifies.", "quantifier": "all payload strings", "why_tests_cant": "Adversarial inputs.", "anchors": ["nip44/nip44.go: Decrypt"]}
{"id": "C58", "title": "NIP-04 encrypt/decrypt round trip", "statement": "Decrypt(Encrypt(m,k),k) = m for every message and key; malformed content yields an error.", "quantifier": "all messages, keys, ivs", "why_tests_cant": "All lengths modulo block size.", "anchors": ["nip04/nip04.go: Encrypt, Decrypt"]}
{"id": "C59", "title": "NIP-49 encrypted key round trip", "statement": "Decrypt(Encrypt(sk,password,...),password) = sk for every 32-byte key; malformed codes yield an error.", "quantifier": "all keys, passwords, parameters", "why_tests_cant": "All keys; layout offsets.", "anchors": ["nip49/nip49.go: Encrypt, Decrypt"]}
{"id": "C60", "title": "PoW difficulty counts leading zero bits", "statement": "Difficulty(id) equals the number of leading zero bits of the id for every hex id, agrees with the byte version, and Check accepts iff difficulty >= minimum; CommittedDifficulty never exceeds the actual difficulty and equals the target named by the nonce tag whenever the id reaches it.", "quantifier": "all ids", "why_tests_cant": "2^256 ids; nibble/byte boundaries.", "anchors": ["nip13/nip13.go: Difficulty, difficultyBytes, Check, CommittedDifficulty"]}
{"id": "C61", "title": "DoWork returns only valid proofs of work", "statement": "Any nonce tag DoWork returns makes the event's id meet the target and names the target difficulty; worker threads try disjoint nonces and together miss none.", "quantifier": "all events, targets, thread counts and completion orders", "why_tests_cant": "Concurrent workers; unbounded nonce space.", "anchors": ["nip13/nip13.go: DoWork, doWork"]}
{"id": "C62", "title": "HyperLogLog registers are a join-semilattice homomorphism", "statement": "Adding pubkeys computes, per register, the maximum rank; order and repetition do not matter; merging two sketches equals the sketch of the union; merge is commutative, associative and idempotent.", "quantifier": "all multisets of pubkeys and all merge trees", "why_tests_cant": "All orders.", "anchors": ["nip45/hyperloglog/hll.go: Add, AddBytes, Merge, MergeRegisters"]}
{"id": "C63", "title": "HyperLogLog register values and indices stay in range", "statement": "For every pubkey and every offset derived from a filter or event, the register index is below 256, the rank is 1..57, and no slice access is out of bounds.", "quantifier": "all pubkeys and offsets", "why_tests_cant": "Boundary ranks (all-zero suffix).", "anchors": ["nip45/hyperloglog/hll.go: AddBytes, helpers.go: clz56", "nip45/nip45.go: HyperLogLogEventPubkeyOffsetsAndReferencesForEvent, HyperLogLogPubkeyOffset..."]}
{"id": "C64", "title": "Event and filter HLL offsets agree", "statement": "For every event counted for a reference, the offset computed from the event equals the offset computed from the filter that counts that reference.", "quantifier": "all events/filters of the supported kinds", "why_tests_cant": "All reference values.", "anchors": ["nip45/nip45.go"]}
{"id": "C65", "title": "Pointers convert to tags, filters and references consistently", "statement": "A pointer's AsTag parses back to the same pointer, and its AsFilter matches exactly the events for which MatchesEvent holds.", "quantifier": "all pointers and events", "why_tests_cant": "All events; failure needs missing or repeated d tags.", "anchors": ["pointers.go: ProfilePointer, EventPointer, EntityPointer"]}
{"id": "C66", "title": "Thread root and parent are found per NIP-10", "statement": "GetThreadRoot/GetImmediateParent return the marked root/reply tag when markers are used and fall back to positional rules otherwise; both are nil iff no e tag qualifies.", "quantifier": "all tag lists", "why_tests_cant": "All orderings of markers and unmarked tags.", "anchors": ["nip10/nip10.go"]}
{"id": "C67", "title": "Comment threads per NIP-22", "statement": "GetThreadRoot/GetImmediateParent of a comment return the uppercase/lowercase reference tags as specified.", "quantifier": "all tag lists", "why_tests_cant": "All tag orders.", "anchors": ["nip22/nip22.go"]}
{"id": "C68", "title": "Expiration is read correctly", "statement": "GetExpiration returns the timestamp of the first expiration tag that has a value, or -1 when there is none or it is not a 64-bit decimal integer.", "quantifier": "all tag lists", "why_tests_cant": "All strings.", "anchors": ["nip40/nip40.go: GetExpiration"]}
{"id": "C69", "title": "Auth events validate exactly when fresh, signed and for this relay and challenge", "statement": "ValidateAuthEvent accepts iff kind, challenge, relay host, time window and signature all hold, and returns the author's pubkey.", "quantifier": "all events, challenges, relay urls and clock values", "why_tests_cant": "Boundary times and all field combinations.", "anchors": ["nip42/nip42.go: ValidateAuthEvent"]}
{"id": "C70", "title": "Gift wrap round trip authenticates the sender", "statement": "GiftUnwrap(GiftWrap(rumor)) returns the rumor with the sender's pubkey and a recomputed id, and for every wrap it accepts, the returned rumor's pubkey equals the pubkey whose key signed the seal.", "quantifier": "all rumors, keys and wraps (including adversarial ones)", "why_tests_cant": "Adversarial wraps.", "anchors": ["nip59/nip59.go: GiftWrap, GiftUnwrap"]}
{"id": "C71", "title": "The memory KV store is a map", "statement": "Any sequence of Get/Set/Delete/Update behaves like a finite map; Update is atomic, a NoOp or error leaves the store unchanged and a nil result deletes.", "quantifier": "all operation histories", "why_tests_cant": "Histories.", "anchors": ["sdk/kvstore/memory/store.go"]}
{"id": "C72", "title": "Known-relay lists survive storage", "statement": "After tracking any set of relays for an event, GetEventRelays returns each tracked relay exactly once.", "quantifier": "all sequences of tracked relays of any url length", "why_tests_cant": "Length byte boundary at 256; histories.", "anchors": ["sdk/event_relays.go: encodeRelayList, decodeRelayList, trackEventRelay, GetEventRelays"]}
{"id": "C73", "title": "Relay hints: best known relays come first", "statement": "TopN returns at most n distinct relays known for the pubkey in non-increasing score order; saving an older timestamp never lowers a newer one.", "quantifier": "all histories of Save and query times", "why_tests_cant": "Histories.", "anchors": ["sdk/hints/memoryh/db.go", "sdk/hints/keys.go"]}
{"id": "C74", "title": "Dataloader answers every request with its own key's result", "statement": "Every Load call returns exactly once with the result the batch function gave for its key; batches never exceed the configured size; every request belongs to exactly one batch.", "quantifier": "all schedules of concurrent Loads, timer expirations and batch completions", "why_tests_cant": "Interleavings.", "anchors": ["sdk/dataloader/dataloader.go"]}
{"id": "C75", "title": "Replaceable loader returns the newest event per pubkey", "statement": "For each pubkey the loader yields the newest matching event returned by any relay, or an error iff none was returned.", "quantifier": "all result orders", "why_tests_cant": "All orders.", "anchors": ["sdk/replaceable_loader.go: batchLoadReplaceableEvents"]}
{"id": "C76", "title": "Addressable loader keeps the newest event per (pubkey, d)", "statement": "For each pubkey the loader yields, per d value, the newest event, and no two events with the same d.", "quantifier": "all result orders", "why_tests_cant": "All orders.", "anchors": ["sdk/addressable_loader.go: batchLoadAddressableEvents"]}
{"id": "C77", "title": "Merging relay lists loses nothing", "statement": "appendUnique(list, items...) contains every element of list and items, without duplicating items already present.", "quantifier": "all lists", "why_tests_cant": "Failure needs a duplicate before a new item.", "anchors": ["sdk/utils.go: appendUnique"]}
{"id": "C78", "title": "List and set parsing keeps one item per value, in order", "statement": "Parsing a list event yields exactly the first occurrence of each value among its parseable tags, in tag order.", "quantifier": "all events", "why_tests_cant": "All tag orders and duplicates; (one parser never accepts anything).", "anchors": ["sdk/list.go: parseItemsFromEventTags", "sdk/set.go: parseSetsFromEvents", "sdk/lists_event.go: parseEventRef", "sdk/lists_profile.go", "sdk/lists_relay.go"]}
{"id": "C79", "title": "Concurrent web-of-trust loads all complete", "statement": "Every LoadWoTFilter call returns once the underlying load finishes.", "quantifier": "all schedules of concurrent callers", "why_tests_cant": "Deadlock needs a specific interleaving between lookup and removal.", "anchors": ["sdk/wot.go: LoadWoTFilter"]}
{"id": "C80", "title": "Relay rotation visits every relay and never panics", "statement": "RelayStream.Next returns elements of URLs and any len(URLs) consecutive calls return each position once.", "quantifier": "all starting serials and call counts", "why_tests_cant": "Serial starts at a random 63-bit integer and may overflow.", "anchors": ["sdk/system.go: RelayStream.Next"]}
{"id": "C81", "title": "Cached values belong to the requested key", "statement": "A cache Get(k) returns only values stored under k.", "quantifier": "all keys", "why_tests_cant": "Needs two keys sharing a 4-byte suffix.", "anchors": ["sdk/cache/memory/cache.go"]}
{"id": "C82", "title": "Spent tokens leave the wallet", "statement": "After a successful Send, the tokens spent are no longer in the wallet and the wallet's balance equals the previous balance minus what was sent and the fee.", "quantifier": "all wallets, amounts and mints", "why_tests_cant": "Failure needs an exact-amount spend (no change).", "anchors": ["nip60/wallet.go", "nip60/send.go: saveChangeAndDeleteUsedTokens, getProofsForSending", "nip60/swap.go: splitIntoPrincipalAndChange"]}
{"id": "C83", "title": "Token selection covers amount and fee", "statement": "getProofsForSending succeeds only with tokens of one mint whose total covers amount plus fee, never picks an excluded mint, and fails only if no mint's tokens (in order) suffice; the swap split never under- or overflows for the chosen tokens.", "quantifier": "all wallets and fees", "why_tests_cant": "Arithmetic corner cases of fee.", "anchors": ["nip60/send.go: getProofsForSending", "nip60/swap.go: splitIntoPrincipalAndChange"]}
{"id": "C84", "title": "Wallet metadata follows the newest event", "statement": "After processing any sequence of wallet events, mints and key are those of the newest one.", "quantifier": "all event orders", "why_tests_cant": "Order dependence.", "anchors": ["nip60/wallet.go: loadWallet"]}
{"id": "C85", "title": "Nutzaps are locked to the recipient", "statement": "Sending with WithP2PK(pk) either locks the proofs to pk or fails.", "quantifier": "all public key strings", "why_tests_cant": "Failure is silent for keys of the wrong byte length.", "anchors": ["nip60/send.go: WithP2PK, Send", "nip61/nip61.go: SendNutzap", "nip61/info.go: ParseEvent"]}
{"id": "C86", "title": "Remote signer sessions belong to their client", "statement": "GetSession(pubkey) returns the session created for exactly that client pubkey after any history of requests.", "quantifier": "all request histories and client keys", "why_tests_cant": "Sorted insertion with parallel arrays must stay aligned.", "anchors": ["nip46/static-key-signer.go: getOrCreateSession, GetSession", "nip46/dynamic-signer.go: setSession"]}
{"id": "C87", "title": "Unauthorized remote signing requests get no result", "statement": "When the authorizer refuses a request, the response carries an error and no result, for every method.", "quantifier": "all requests and authorizers", "why_tests_cant": "All methods and parameters.", "anchors": ["nip46/static-key-signer.go: HandleRequest", "nip46/session.go: MakeResponse", "nip46/dynamic-signer.go: HandleRequest"]}
{"id": "C88", "title": "A keyer's Decrypt inverts its Encrypt", "statement": "For every keyer implementation, Decrypt(Encrypt(m, peer), peer) = m.", "quantifier": "all messages, peers, keyers", "why_tests_cant": "Must hold per implementation for all messages (two implementations call the wrong function).", "anchors": ["keyer/bunker.go", "keyer/encrypted.go", "keyer/plain.go"]}
{"id": "C89", "title": "Group state follows the newest metadata", "statement": "Merging a group metadata event sets every metadata field to the event's value and refuses older events.", "quantifier": "all groups and events", "why_tests_cant": "Stale flags show only on true-to-false transitions.", "anchors": ["nip29/group.go: MergeInMetadataEvent, ToMetadataEvent, MergeInMembersEvent, MergeInAdminsEvent"]}
{"id": "C90", "title": "Content blocks tile the text", "statement": "Concatenating the text of the blocks Parse yields gives back the content, blocks are non-empty, in order and at their stated offsets.", "quantifier": "all contents", "why_tests_cant": "All strings; index arithmetic around separators.", "anchors": ["nip27/blocks.go: Parse"]}
{"id": "C91", "title": "Structured event kinds round trip", "statement": "Parsing the event produced from a repository, repository state, calendar event, file metadata, wallet info or history entry gives back the same data.", "quantifier": "all values", "why_tests_cant": "All field combinations.", "anchors": ["nip34/repository.go", "nip34/state.go", "nip52/calendar_event.go", "nip94/nip94.go", "nip61/info.go", "nip60/history.go"]}
{"id": "C92", "title": "Decoded codes are well formed", "statement": "Whatever string Decode accepts, the value has the type belonging to its prefix, its keys and ids are 64 lowercase hex characters, an naddr has a kind and an identifier, and kinds fit 32 bits.", "quantifier": "all strings", "why_tests_cant": "Codes come from untrusted users; all byte payloads.", "anchors": ["nip19/nip19.go: Decode"]}
{"id": "C93", "title": "Fetching a list returns the newest version the system can see", "statement": "A list fetch that is not answered from the cache returns the newer of the stored and the network version and never nothing when one of them exists; a set fetch likewise, and no fetch panics.", "quantifier": "all contents of the stores, fetch times, network answers and pubkey strings", "why_tests_cant": "Combinations of cached, stored, recently fetched and failing network.", "anchors": ["sdk/list.go: fetchGenericList", "sdk/set.go: fetchGenericSets"]}
{"id": "C94", "title": "Deleted wallet tokens stay deleted", "statement": "After loading a wallet from any interleaving of token events, deletion events and the end of stored events, it holds exactly the tokens received and not deleted.", "quantifier": "all histories of token and deletion events and every position of the end of stored events among them", "why_tests_cant": "Relays deliver tokens and deletions in any order, repeatedly and at any time.", "anchors": ["nip60/wallet.go: loadWallet, removeDeletedToken"]}
{"id": "C95", "title": "Every answered remote signing request is answered under its own id", "statement": "Whenever a remote signer's HandleRequest returns a response without an error, the response carries the id of the request and either a result or an error.", "quantifier": "all request histories, methods, parameters and authorizers", "why_tests_cant": "The client matches answers by id: a single parameter combination that loses the id leaves the client waiting.", "anchors": ["nip46/bunker_session.go: MakeResponse", "nip46/static-key-signer.go: HandleRequest", "nip46/dynamic-signer.go: HandleRequest"]}
{"id": "C96", "title": "No remote signing request crashes the signer", "statement": "HandleRequest of the static and of the dynamic signer returns for every event, whatever its kind, tags, content and method, whatever its kind, tags, content and method, after any history of requests. (False: an event of anyone whose content makes the decryption panic crashes either signer; without a relay source get_relays crashes the dynamic one.)", "quantifier": "all event histories", "why_tests_cant": "Requests come from untrusted clients; any single method and configuration can break it.", "anchors": ["nip46/static-key-signer.go: HandleRequest", "nip46/dynamic-signer.go: HandleRequest"]}
{"id": "C97", "title": "A keyer reports the key it signs with", "statement": "After any history of calls, GetPublicKey of a keyer returns the public key under which its SignEvent signs.", "quantifier": "all histories of GetPublicKey, SignEvent, Encrypt and Decrypt calls and all events", "why_tests_cant": "The cached key is written by several methods; only some orders of calls expose a wrong one.", "anchors": ["keyer/encrypted.go: GetPublicKey, SignEvent", "keyer/plain.go: GetPublicKey, SignEvent"]}
{"id": "C98", "title": "A content block points to what its text says", "statement": "Whenever Parse yields a block with a pointer to a profile or event, the block's text is 'nostr:' followed by a code that decodes to exactly that pointer; a block with an external link carries its own text as the link and the text starts with http, https, ws or wss and a colon.", "quantifier": "all contents", "why_tests_cant": "All strings; the text and the pointer are cut out of the content by different index computations.", "anchors": ["nip27/blocks.go: Parse", "nip27/blocks.go: Block"]}
{"id": "C99", "title": "Unknown members of a received event are ignored", "statement": "An event whose JSON carries members other than the seven of NIP-01 is parsed to the same event as without them.", "quantifier": "all JSON objects with the members of an event and any others", "why_tests_cant": "Every name, value type and position of the extra member must be covered.", "anchors": ["event_easyjson.go: UnmarshalJSON"]}
{"id": "C100", "title": "Negentropy messages round trip", "statement": "Every message a side of a negentropy sync writes (open, message, close, error) is recognised by the other side, through the relay connection's reader, as the same message with the same contents.", "quantifier": "all NIP-77 envelopes", "why_tests_cant": "Unbounded contents; the message passes two parsers with separate label tables.", "anchors": ["nip77/envelopes.go: ParseNegMessage, MarshalJSON, FromJSON", "relay.go: reader loop"]}
{"id": "C101", "title": "No relay message crashes a negentropy sync", "statement": "Whatever bytes a relay sends during NegentropySync, the handler for unknown labels returns.", "quantifier": "all messages", "why_tests_cant": "Every byte string; the slice bounds depend on where the first comma is.", "anchors": ["nip77/envelopes.go: ParseNegMessage", "nip77/nip77.go: NegentropySync", "relay.go: reader loop"]}
{"id": "C102", "title": "A remote signing call gets the answer to its own request", "statement": "Whatever calls run concurrently and whatever events arrive, a call to a remote signer returns a result or a signer's error only if, while it ran, an event arrived that decrypts to an answer with that call's own id and that content; no answer serves two calls, and a returned call leaves no listener behind.", "quantifier": "all interleavings of any number of calls, arriving events, relay connections and cancellations", "why_tests_cant": "Concurrent calls share one subscription and one table of listeners; only all interleavings settle it.", "anchors": ["nip46/client.go: RPC, NewBunker"]}
{"id": "C103", "title": "The remote signing client neither crashes nor stalls", "statement": "No order of calls, answers and cancellations crashes the process that uses a remote signer, and a call whose answer has arrived returns. (False: a cancelled call whose answer is pending, a second answer, or an event of anyone whose content makes the decryption panic.)", "quantifier": "all interleavings", "why_tests_cant": "The crash needs a particular order of a closing channel and a pending send.", "anchors": ["nip46/client.go: RPC, NewBunker"]}
{"id": "C104", "title": "Authorization urls reach the handler", "statement": "When a remote signer answers a pending call with an authorization url, the handler given to the client is called with that url.", "quantifier": "all interleavings", "why_tests_cant": "All histories of calls and answers.", "anchors": ["nip46/client.go: NewBunker, ConnectBunker"]}
{"id": "C105", "title": "A remotely signed event is the event that was to be signed", "statement": "When SignEvent of the remote signing client succeeds, the event has the kind, time, tags and content it had before, the id of those and a valid signature by the signer's key.", "quantifier": "all events and all answers of the signer", "why_tests_cant": "The answer is arbitrary bytes from another party.", "anchors": ["nip46/client.go: SignEvent"]}
{"id": "C106", "title": "A negentropy sync ends", "statement": "Once the relay has answered all rounds, NegentropySync returns: the goroutines that compare the sets and the ones that transfer events do not wait for each other forever.", "quantifier": "all directions, all numbers of differing ids, all interleavings", "why_tests_cant": "Whether it ends depends on how many ids differ in the direction that is not transferred and on the scheduler.", "anchors": ["nip77/nip77.go: NegentropySync", "nip77/negentropy/negentropy.go: New, Reconcile"]}
{"id": "C107", "title": "Every id a sync finds is transferred once", "statement": "Every id found to be missing on one side is requested exactly once from the other side, nothing else is, and a request has at most fifty ids.", "quantifier": "all sequences of ids, all interleavings of the transferring goroutines", "why_tests_cant": "Lists are recycled between goroutines; whether one is shared depends on the schedule.", "anchors": ["nip77/nip77.go: NegentropySync", "nip77/idlistpool.go: grab, giveback"]}
{"id": "C108", "title": "No message of the other side crashes a reconciliation", "statement": "Reconcile returns an answer or an error for every message, at every point of a session, as client and as server.", "quantifier": "all stores, all sequences of messages", "why_tests_cant": "Messages are arbitrary strings from the network.", "anchors": ["nip77/negentropy/negentropy.go: Reconcile, reconcileAux", "nip77/negentropy/hex.go: ReadString", "nip77/negentropy/encoding.go: readBound, EncodeVarInt"]}
{"id": "C109", "title": "What a user types is read as the key or event it says", "statement": "InputToProfile and InputToEventPointer return the pointer that an npub, nprofile, note, nevent, hex string or NIP-05 address stands for, and nil for anything else; they never crash.", "quantifier": "all input strings, all answers of the NIP-05 server", "why_tests_cant": "Inputs are arbitrary text pasted by users; the crashes need codes of unusual lengths that no test has.", "anchors": ["sdk/input.go: InputToProfile, InputToEventPointer", "nip19/nip19.go: Decode"]}
{"id": "C110", "title": "A pointer leads to the event it points to", "statement": "FetchSpecificEvent returns an event the pointer points to (by id, or by kind, author and identifier), in its newest version, or an error if it was not found.", "quantifier": "all pointers, all contents of the store, all answers of relays", "why_tests_cant": "Which event is returned depends on what the local store and the relays hold and on the order of their answers.", "anchors": ["sdk/specific_event.go: FetchSpecificEvent", "sdk/specific_event.go: FetchSpecificEventFromInput"]}
{"id": "C111", "title": "The relays a pointer names are asked, and named first in the answer", "statement": "FetchSpecificEvent asks the relays named in the pointer and the author's relays; with WithRelays all relays that have the event are returned, the ones from the pointer first.", "quantifier": "all pointers, all relay lists, all answers", "why_tests_cant": "Depends on every combination of hint lists and answers.", "anchors": ["sdk/specific_event.go: FetchSpecificEvent"]}
{"id": "C112", "title": "The outbox relays are the best ones known for the user", "statement": "FetchOutboxRelays returns at most n relays, the ones ranked best by the hints for that user.", "quantifier": "all sequences of calls for all users, all n", "why_tests_cant": "A short-term cache is shared between calls with other arguments; histories matter.", "anchors": ["sdk/outbox.go: FetchOutboxRelays, FetchInboxRelays, FetchWriteRelays"]}
{"id": "C113", "title": "A feed page has the users' events before the given time", "statement": "FetchFeedPage returns, newest first, events of the given users and kinds up to the given time: all that the local store and the users' relays have, up to the limit.", "quantifier": "all users, kinds, times, marks, contents of the store, answers of relays", "why_tests_cant": "What is asked from relays depends on marks kept from earlier pages.", "anchors": ["sdk/feeds.go: FetchFeedPage"]}
{"id": "C114", "title": "A fetched profile is the user's and never gets older", "statement": "FetchProfileMetadata always returns a profile for the user asked for, made from a kind 0 event of theirs if one is known; later calls never return an older version than earlier ones, and the newest version the system has is returned.", "quantifier": "all histories of fetches for any users, events saved, and cache evictions", "why_tests_cant": "Caches, the local store and refresh times interact over long histories and many users.", "anchors": ["sdk/metadata.go: FetchProfileMetadata, ParseMetadata, ShortName", "sdk/cache/memory/cache.go"]}
{"id": "C115", "title": "Only real relay hints are recorded from events", "statement": "From an event that arrives the system records where it was found, the relays its tags and text name for users, or the author's relay list; only websocket urls of real relays, only for valid users, and nothing for ephemeral events.", "quantifier": "all events, all relays", "why_tests_cant": "Events are arbitrary data from the network.", "anchors": ["sdk/tracker.go: TrackEventHints, TrackEventHintsAndRelays, TrackQueryAttempts", "sdk/utils.go: IsVirtualRelay"]}
{"id": "C116", "title": "NormalizeURL gives every relay one name", "statement": "NormalizeURL is idempotent, always gives a websocket scheme, and gives the same result for different spellings of the same address.", "quantifier": "all strings, for any url parser", "why_tests_cant": "All urls and all spellings.", "anchors": ["normalize.go: NormalizeURL"]}
{"id": "C117", "title": "A NIP-05 identifier is read, normalized and looked up consistently", "statement": "An identifier is accepted exactly if it is a domain or name@domain; NormalizeIdentifier keeps its meaning and is canonical; IdentifierToURL is the url a lookup uses; a lookup returns exactly the valid key the server lists for that name.", "quantifier": "all strings, all server answers", "why_tests_cant": "All strings; a regular expression.", "anchors": ["nip05/nip05.go: ParseIdentifier, IsValidIdentifier, NormalizeIdentifier, IdentifierToURL, QueryIdentifier"]}
{"id": "C118", "title": "A relay management request is read as the call it names", "statement": "DecodeRequest turns a NIP-86 request from the network into exactly the call its method names with the arguments given, refuses anything else with an error, and never crashes.", "quantifier": "all methods and parameter lists", "why_tests_cant": "Parameters are arbitrary JSON values from the network.", "anchors": ["nip86/methods.go: DecodeRequest"]}
{"id": "C119", "title": "Protected events are recognised, also inside reposts", "statement": "IsProtected is true exactly for events with the tag [\"-\"], and HasEmbeddedProtected exactly for reposts of such events.", "quantifier": "all events, all embedded events", "why_tests_cant": "The embedded event is searched as text without parsing; all texts matter.", "anchors": ["nip70/nip70.go: IsProtected, HasEmbeddedProtected"]}
{"id": "C120", "title": "Private messages reach the recipient, from the one who sent them", "statement": "A message sent with PublishMessage is read by the recipient's ListenForMessages, with its content and its sender, and by no one forged; PublishMessage succeeds exactly if a relay of each side took it; listeners survive whatever arrives.", "quantifier": "all messages, keys, histories of the keyers, answers of relays, events that arrive", "why_tests_cant": "Spans signing, JSON, two encryptions, random times and the behaviour of relays.", "anchors": ["nip17/nip17.go: PrepareMessage, PublishMessage, ListenForMessages, GetDMRelays", "nip59/nip59.go: GiftWrap, GiftUnwrap", "keyer/plain.go"]}
{"id": "C121", "title": "The relay hints databases on disk keep the newest times", "statement": "After any history of saves the Badger, LMDB and SQL hints databases hold, per public key and relay, the newest time saved of each kind (cut at the clock), and TopN(pk, n) returns the n best relays; they agree with the database in memory. (False for SQL: there the last save replaces a newer time.)", "quantifier": "all histories of saves, all scores, all tie orders of the sort, all overlaps of saves", "why_tests_cant": "Depends on every order of older and newer saves and on the neighbours of a key in the database.", "anchors": ["sdk/hints/badgerh/db.go: Save, TopN, GetDetailedScores", "sdk/hints/badgerh/keys.go", "sdk/hints/lmdbh/db.go", "sdk/hints/lmdbh/keys.go", "sdk/hints/sqlh/db.go: Save", "sdk/hints/sqlh/interop.go", "sdk/hints/interface.go"]}
{"id": "C122", "title": "The key-value stores on disk are maps", "statement": "On every history of Get, Set, Delete and Update with keys the library accepts, the Badger and LMDB stores answer like a map, as the one in memory does; an Update that answers without an error was atomic, one that answers with an error changed nothing.", "quantifier": "all histories of calls, all functions given to Update, all overlaps of calls (Badger)", "why_tests_cant": "Agreement of three implementations on every history, and atomicity under every overlap.", "anchors": ["sdk/kvstore/badger/store.go", "sdk/kvstore/lmdb/store.go", "sdk/kvstore/interface.go", "sdk/kvstore/noop.go"]}
{"id": "C123", "title": "A connection serves writes in order and ends cleanly", "statement": "Every message given to a relay is written at most once, in the order the relay accepted them, and its sender is told truthfully whether it was; Close may be called any number of times from anywhere and closes once; when the connection ends, by Close, an error, three failed pings or its context, every waiting call returns and every subscription ends. (False: a caller that ignores the answer of a failed write stalls the connection for good, and Close can crash.)", "quantifier": "all schedules of any number of Write, Close and Subscribe calls, the writer and the reader; all outcomes of writes and pings", "why_tests_cant": "Races between goroutines over unbuffered channels, a mutex and an unguarded pointer; tests meet a handful of the schedules.", "anchors": ["relay.go: ConnectWithTLS, Write, Close, Subscribe, IsConnected", "subscription.go: unsub, Close", "connection.go", "nip77/nip77.go: NegentropySync", "nip77/idsonly.go: FetchIDsOnly"]}
{"id": "C124", "title": "Paying, receiving and moving wallet money loses none", "statement": "PayBolt11 pays the invoice out of tokens of one mint and keeps everything but the invoice, the fees and the Lightning cost; Receive adds what the proofs are worth less the fee, at a destination mint if one is given; SendExternal returns proofs of exactly the amount. On an error the wallet is as before and no money was spent. (False in several cases, each shown.)", "quantifier": "all wallets, invoices, mints and their answers, quotes and fees", "why_tests_cant": "Money moves in several calls to mints that may fail after any of them; amounts, splits and reserves are arbitrary.", "anchors": ["nip60/pay.go: PayBolt11", "nip60/receive.go: Receive", "nip60/lightning-swap.go: lightningMeltMint, redeemMinted", "nip60/send-external.go: SendExternal", "nip60/client/http.go"]}
{"id": "C125", "title": "The amount of a Lightning invoice is read exactly", "statement": "GetSatoshisAmountFromBolt11 returns the amount an invoice asks for, in satoshis rounded down, and an error for everything that is not an invoice with an amount.", "quantifier": "all strings", "why_tests_cant": "All strings; a hand-written parser with unsigned arithmetic.", "anchors": ["nip60/helpers.go: GetSatoshisAmountFromBolt11"]}
{"id": "C126", "title": "The fast message parser reads what the default one reads", "statement": "Built with the sonic tag, the message parser reads every message of the protocol as the envelope it carries, with events and filters the same as the default parser reads them; it refuses everything else with an error and no envelope, and never crashes. (False: it crashes on a REQ with a member `count`, returns nil pointers without an error, and envelopes with an error.)", "quantifier": "all JSON values, of any nesting and size", "why_tests_cant": "All shapes of JSON, which come in token by token in any position of a state machine with thirty positions and ten nil pointers.", "anchors": ["envelopes_sonic.go: sonicVisitor, ParseMessage", "relay.go: ConnectWithTLS (reader loop)"]}
{"id": "C127", "title": "Messages keep their contents", "statement": "What the fast message parser returns keeps its contents for as long as the caller holds it, whatever is parsed later. (False: the next message overwrites the tags of the previous one.)", "quantifier": "all messages, all sequences of calls, all growth policies of the runtime", "why_tests_cant": "Shared memory behind slices; a test that compares right after parsing sees nothing.", "anchors": ["envelopes_sonic.go: NewMessageParser, ParseMessage, doneWithStringSlice, doneWithTagSlice, OnArrayBegin, OnArrayEnd", "relay.go: ConnectWithTLS (reader loop)"]}
{"id": "C128", "title": "A query returns what the relay has", "statement": "QuerySync returns, without an error, only authentic matching events the relay sent for that query, one per message; if the deadline did not pass, the connection held and the relay did not close the query, it returns after the relay's EOSE and with every matching event sent before it; and it always returns, by the deadline at the latest. (False: that the order is kept, that events outside the filter's time window are excluded, and that a refused query is an error.)", "quantifier": "all filters, relay messages, deadlines, disconnections and schedules of the goroutines involved", "why_tests_cant": "The events, the EOSE and the end of the subscription are handled by goroutines of their own.", "anchors": ["relay.go: QueryEvents, QuerySync, Subscribe", "subscription.go: start, dispatchEvent, dispatchEose, handleClosed, unsub"]}
{"id": "C129", "title": "A count is the relay's answer", "statement": "Count returns a number only if the relay gave it for that request, never crashes, and returns by the deadline; whatever the relay answers, and however often, the connection goes on serving other subscriptions. (False: a second answer, or one that races the deadline, blocks the connection's reader for good; a refused count is waited for until the deadline.)", "quantifier": "all sequences of relay messages and all schedules of reader and caller", "why_tests_cant": "Unbuffered channel between the only reader of a connection and a caller that may leave at any moment.", "anchors": ["relay.go: Count, countInternal, ConnectWithTLS (reader loop)", "subscription.go: Fire, unsub"]}
{"id": "C130", "title": "Several stores behave as one", "statement": "Querying a MultiStore returns exactly the events its stores return, newest first, with an error exactly if a store failed; as a stream it delivers everything each store sends, in its order, and then ends; publishing reaches every store. (False: that the limit holds and events are not repeated, and that the stream ever ends.)", "quantifier": "all numbers of stores, answers, errors and schedules of the forwarding goroutines", "why_tests_cant": "Any number of stores, any interleaving; a test cannot show that a channel is never closed.", "anchors": ["interface.go: MultiStore, Publish, QueryEvents, QuerySync"]}
{"id": "C131", "title": "A verified nutzap is backed by the mint", "statement": "VerifyNutzap accepts a nutzap exactly if each of its proofs carries a discrete-log proof that the mint signed it with the key for its amount, and reports the sum of the amounts; honest proofs are always accepted, and a proof the mint did not sign cannot be given two different answers; it never crashes. (False: it crashes on a proof without the discrete-log part and on one whose amount the keyset lacks; the same proof counts as often as it is given; a nutzap without proofs is accepted for nothing.)", "quantifier": "all tags, proofs, keysets and every group with a generator", "why_tests_cant": "The equation has to hold for all keys, blinding factors and nonces.", "anchors": ["nip61/verify.go: VerifyNutzap, verifyProofDLEQ, VerifyBlindSignatureDLEQ, parseDLEQ"]}
{"id": "C132", "title": "Live activities and media metadata are what the tags say", "statement": "ParseLiveEvent returns for each field what the tags of that name say, GetHost the first participant with the role host; writing a live activity and reading it back returns the same; ParseTags returns one entry for each readable imeta tag, in order, or nothing if the dimensions of one cannot be read; Get finds the first entry of an address. (False: the times are never read, and summary, status, image, times and relays do not survive the round trip; an imeta tag with a single item is ignored.)", "quantifier": "all tag lists, all live activities, all texts", "why_tests_cant": "Fifteen cases of tags in any order and number; the round trip is over all values.", "anchors": ["nip53/nip53.go: ParseLiveEvent, GetHost, ToHashtags", "nip92/imeta.go: ParseTags, Get"]}
{"id": "C133", "title": "A live feed ends cleanly", "statement": "The channel of StreamLiveFeed is closed once, exactly when the subscriptions of all users are over, and nothing is sent on it afterwards; the caller may stop receiving. (False: with no users it is never closed; an abandoned feed keeps its goroutines and is never closed.)", "quantifier": "all numbers of users, events and schedules of the goroutines", "why_tests_cant": "Closing depends on a counter that several goroutines count down.", "anchors": ["sdk/feeds.go: StreamLiveFeed"]}
{"id": "C134", "title": "A live feed misses nothing", "statement": "StreamLiveFeed delivers every authentic event of a user and kind that the relays send, once, and nothing else; what arrived while it was off is delivered when it runs again. (False: its filter points to a variable it changes, so after the first event the older ones it asked for are dropped; and when one relay disconnects, the others' stored events are dropped.)", "quantifier": "all relay answers, disconnections and schedules of readers and consumer", "why_tests_cant": "Shared pointer between the consumer and the relays' readers; the loss depends on the schedule.", "anchors": ["sdk/feeds.go: StreamLiveFeed", "pool.go: SubscribeMany, subMany", "relay.go: ConnectWithTLS (reader loop)", "subscription.go: dispatchEose"]}
{"id": "C135", "title": "A web of trust has everyone in it", "statement": "LoadWoTFilter ends, and its filter says yes for everyone the user follows and everyone those follow, however the workers that fetch the lists are scheduled; nothing is sent on a closed channel and at most 45 lists are fetched at a time; with nobody followed it says no to all. (Limits: a key of fewer than 48 characters crashes, as does a failing filter library; keys that share 16 characters are not told apart.)", "quantifier": "all follow lists, numbers of users and schedules", "why_tests_cant": "Completeness depends on a wait group counted up and down by many goroutines.", "anchors": ["sdk/wot.go: loadWoT, makeWoTFilter, WotXorFilter.Contains, PubKeyToShid"]}
{"id": "C136", "title": "Changed wallet settings are what others read", "statement": "AddMint adds exactly the named mints that are missing, RemoveMint removes exactly the named ones, SetPrivateKey takes exactly 32 bytes of hex; the published event, read by another client, gives the same mints and key; on an error nothing changes. (False: a failing AddMint keeps the mints before the failing one; a mint read from an event under a name that is not normalized cannot be removed, and of a mint named twice one stays.)", "quantifier": "all wallets, urls, mint answers and readers", "why_tests_cant": "All combinations of lists, names and failures.", "anchors": ["nip60/wallet.go: AddMint, RemoveMint, SetPrivateKey, toEvent, parse"]}
{"id": "C137", "title": "A prepared note tags whom and what it mentions", "statement": "PrepareNoteEvent changes nothing but the tags, and only appends: afterwards every profile, event and address mentioned in the content has its tag; each tag added belongs to a mention; what is tagged is not tagged again. (False in the last part: it looks for tags of other names than it adds, so a mention that is tagged already is tagged again, and every run adds all of them again.)", "quantifier": "all contents and tag lists", "why_tests_cant": "The set of mentions is unbounded and any tags may be there before.", "anchors": ["sdk/note.go: PrepareNoteEvent", "nip27/blocks.go: Parse", "pointers.go: AsTag"]}
{"id": "C138", "title": "References are found where they are", "statement": "ParseReferences yields exactly the nostr: codes of the text that stand at word boundaries, from left to right without overlap; each points to what its code says, with the code's relays and at most one more hint from a tag of the event for the same thing. (The hint is not checked: an empty one becomes a relay.)", "quantifier": "all texts and tag lists", "why_tests_cant": "All texts; leftmost matching of a regular expression.", "anchors": ["nip27/references.go: ParseReferences"]}
{"id": "C139", "title": "A batch load ends when all its callers have given up", "statement": "Loads of lists and addressable sets are batched: a query to a relay is cancelled when all callers waiting for it have given up, and not before; a caller who gives up gets its answer at once. (False: a single caller waits for the whole batch; and for addressable events the count of waiting callers is not atomic, so a lost update leaves the query running.)", "quantifier": "all batches, schedules and orders of giving up", "why_tests_cant": "Depends on the interleaving of the goroutines counting down.", "anchors": ["sdk/replaceable_loader.go: batchLoadReplaceableEvents", "sdk/addressable_loader.go: batchLoadAddressableEvents"]}
{"id": "C140", "title": "A user's lists are looked for at their relays, then at the usual ones", "statement": "For a profile, a follow list, a relay list or another list: first all relays known to be the user's, then as many different ones from the list configured for that kind as are missing to three; none is asked twice, at least one is asked, and the relay list is never looked for by way of the relay list. (False: a configured relay that the user already has is not replaced by another, so fewer than three may be asked.)", "quantifier": "all users, kinds, hints and states of the rotations", "why_tests_cant": "Rotations are shared with all other requests, so any urls can come.", "anchors": ["sdk/replaceable_loader.go: determineRelaysToQuery", "sdk/system.go: NewRelayStream, Next"]}
{"id": "C141", "title": "Each stored record belongs to one thing", "statement": "Records of when a list was last fetched, of the relays of an event and of how far a feed has been read never use each other's key; a last-fetch record belongs to one kind and one user, a feed record to one user; times are read as they were written. (False: users whose keys share 16 digits share their feed records; strings that are not keys collide or crash; times from 2106 on are read as old.)", "quantifier": "all users, kinds, events and times", "why_tests_cant": "Injectivity over all pairs of keys.", "anchors": ["sdk/loader_helpers.go: makeLastFetchKey, encodeTimestamp, decodeTimestamp", "sdk/feeds.go: makePubkeyStreamKey", "sdk/event_relays.go: makeEventRelayKey"]}
{"id": "C142", "title": "A new private key is a random valid key", "statement": "GeneratePrivateKey returns 64 lower case hexadecimal digits of a number from 1 to the order of the group minus one; every such key can come, and all are equally likely up to one in 2^64. (False if the random source fails: then the result is empty.)", "quantifier": "all random inputs and all keys", "why_tests_cant": "A distribution over 2^256 keys.", "anchors": ["keys.go: GeneratePrivateKey"]}
{"id": "C143", "title": "A signer made from a text is the one the text describes", "statement": "keyer.New gives for an nsec code or hexadecimal digits a signer with that key, for an encrypted key and its password one with the key in it, for the url or name of a remote signer one that talks to the key and relays named there, after it agreed; anything else is an error. (False: the empty text and zeros give a signer with an invalid key; with a password handler any text beginning with ncryptsec is accepted, and names beginning with it are not; some codes crash.)", "quantifier": "all texts, options, web servers and remote signers", "why_tests_cant": "All texts, including those that look like two of the formats.", "anchors": ["keyer/lib.go: New", "nip46/client.go: ConnectBunker", "nip46/nip46.go: IsValidBunkerURL", "nip46/wellknownnostrjson.go: queryWellKnownNostrJson"]}
{"id": "C144", "title": "A media client asks for exactly what the user wanted", "statement": "Each call of the Blossom client makes one request, to the address of the server, with a token signed by the user that a server accepts for about a minute, for that action and that blob and nothing else; it succeeds only if the server accepted, and gives what it answered; a file is written only then. (False: downloaded bytes and descriptors are not compared with the hash; a file that changes while it is uploaded is sent under the hash of its old content; a broken download destroys the file it should replace; if the signer refuses, requests are made without a token; Delete takes any path.)", "quantifier": "all servers, hashes, files, signers and times", "why_tests_cant": "Servers may answer anything; tokens range over all hashes and keys.", "anchors": ["nipb0/blossom/client.go: NewClient", "nipb0/blossom/http.go: httpCall, authorizationHeader", "nipb0/blossom/check.go: Check", "nipb0/blossom/delete.go: Delete", "nipb0/blossom/list.go: List", "nipb0/blossom/download.go: Download, DownloadToFile", "nipb0/blossom/upload.go: UploadFile"]}
{"id": "C145", "title": "An upload sends the file with its description, and signs for it", "statement": "A NIP-96 upload makes at most one request: it has the file as read, its name and all fields; with a private key it carries a token of that key for that url which, if wanted, names the hash of the bytes sent; without one it carries none. It succeeds exactly if the server answers 200, 201 or 202 with a readable answer. (False: with a key that cannot sign the token is sent unsigned.)", "quantifier": "all uploads, keys, files and servers", "why_tests_cant": "All files and answers.", "anchors": ["nip96/nip96.go: Upload, generateAuthHeader", "nip96/types.go: UploadRequest, Validate"]}
{"id": "C146", "title": "Both builds accept the same events", "statement": "Built with libsecp256k1, events with a public key of 64 and a signature of 128 characters are accepted exactly if the default build accepts them, and everything the default build accepts is accepted; an event signed with a 32 byte key is accepted by both. (False: shorter keys and signatures are filled up with zeros; longer ones crash; Sign with an empty key crashes, with a short one it uses what lies behind it in memory.)", "quantifier": "all events, keys and contents of memory", "why_tests_cant": "Two implementations over all inputs, malformed ones included.", "anchors": ["signature_libsecp256k1.go: CheckSignature, Sign", "signature.go: CheckSignature, Sign"]}
{"id": "C147", "title": "Relay information always names the relay", "statement": "Adding supported NIPs keeps the old entries in order and adds each missing number once; fetching gives a document with the normalized address of the relay whatever the server does, asks the http(s) server at the address of the relay, and reports no error exactly if the answer could be read. (False: numbers from a fetched document are added again; short addresses are dropped; an address that is no web address crashes; schemes other than ws and wss are mangled.)", "quantifier": "all documents, numbers, addresses and servers", "why_tests_cant": "All lists and all answers of a server.", "anchors": ["nip11/types.go: AddSupportedNIP, AddSupportedNIPs", "nip11/fetch.go: Fetch"]}
{"id": "C148", "title": "Group kinds and addresses are recognised", "statement": "For lists of kinds in order, Includes says exactly whether a kind is in the list, in particular for the moderation and metadata kinds; a text is a group address exactly if it has one quote, and gives relay and id; the text of an address whose relay is the normal form of its host is read back. (False: for lists not in order; the scheme and path of the relay are lost; ids with a quote are not read back; a relay that is no url crashes.)", "quantifier": "all sorted lists and kinds; all texts and addresses", "why_tests_cant": "Binary search over lists of every length.", "anchors": ["nip29/nip29.go: KindRange.Includes, ModerationEventKinds, MetadataEventKinds", "nip29/group.go: ParseGroupAddress, GroupAddress.String, IsValid"]}
{"id": "C149", "title": "Names of wiki articles have one normal form", "statement": "A normalized name has only letters, numbers and hyphens; for ASCII texts the spaces around are dropped, letters become small, digits stay and everything else becomes a hyphen, and normalizing again changes nothing. (False beyond ASCII: small letters are taken before the compatibility form, so normalizing twice differs from once.)", "quantifier": "all texts", "why_tests_cant": "All texts, and idempotence.", "anchors": ["nip54/nip54.go: NormalizeIdentifier"]}
{"id": "C150", "title": "A patch belongs to the repository it names", "statement": "The repository of a parsed patch is the one named by the last well-formed a tag, with its relay if it has one; without such a tag there is none. (False: without a relay in that tag the relay of an earlier tag stays; the kind in the tag is not looked at.)", "quantifier": "all events", "why_tests_cant": "All lists of tags.", "anchors": ["nip34/patch.go: ParsePatch"]}
{"id": "C151", "title": "A message of a relay reaches the one it concerns and nobody else", "statement": "For every text a relay sends: whatever the client does is justified by the text (an event reaches a subscription only if the text names that subscription, the event matches it, its signature was checked unless that was waived, and the duplicate check did not reject it; a confirmation reaches only the caller waiting for that id; and so on), at most one thing happens, and no subscription but the named one hears of it. An event message in any layout that passes the checks is delivered. (False: an event whose id or subscription name is written with JSON escapes is dropped by the quick check; an event message without the name of a subscription is delivered to one.)", "quantifier": "all texts from relays, all tables of subscriptions, all duplicate checks and handlers", "why_tests_cant": "All byte sequences a relay can send, and all layouts of JSON.", "anchors": ["relay.go: ConnectWithTLS (the reading loop)", "helpers.go: extractSubID, subIdToSerial, extractEventID, extractEventPubKey, extractDTag, extractTimestamp", "envelopes_default.go: ParseMessage"]}
{"id": "C152", "title": "A batch of filters for relays gives every event once and then ends", "statement": "Querying many relays, each with a filter of its own: no event is received twice, everything received was sent by one of the relays in a message that matches its filter and is authentic, the channel is closed exactly once and nothing is sent afterwards, a cancellation closes it without help of relays or the consumer, and it is closed once all relays are done. If no relay refuses or is lost, every event sent in time is received. (False: an event one relay sends against its filter hides the matching copy of another.)", "quantifier": "all numbers of relays, all their messages, all schedules and cancellations", "why_tests_cant": "All interleavings of the workers, the forwarders and the consumer.", "anchors": ["pool.go: BatchedSubManyEose, batchedSubManyEose, FetchMany"]}
{"id": "C153", "title": "A query for one event answers with an authentic event or after all relays ended", "statement": "An event answered was sent by one of the relays in a message that parses, matches and is authentic; after the answer everything is cancelled and ends; nil is answered only after every relay ended, and if none refused or was lost, then no relay sent a matching event. (False: a forged copy under the same id hides the genuine event.)", "quantifier": "all numbers of relays, all messages, all schedules", "why_tests_cant": "All interleavings and all answers of relays.", "anchors": ["pool.go: QuerySingle"]}
{"id": "C154", "title": "A search for users gives the users found", "statement": "A search gives one profile for each event the relays send, in order, with its author and, if it is a profile, its fields. (False: the filter does not ask for profiles, so every event counts as a user; a user with two versions of the profile is found twice.)", "quantifier": "all answers of relays", "why_tests_cant": "All lists of events relays may send.", "anchors": ["sdk/search.go: SearchUsers"]}
{"id": "C155", "title": "A confirmed name was confirmed within a week", "statement": "For every sequence of calls on a fetched profile, each call says what the server said at a call at most a week before, namely whether it gave the key of the profile; a profile without a name is never valid; and between two questions to the server lies more than a week. (False if the name of the profile is changed in between.)", "quantifier": "all sequences of calls, clocks and servers", "why_tests_cant": "All histories of calls.", "anchors": ["sdk/metadata.go: ProfileMetadata.NIP05Valid"]}
{"id": "C156", "title": "Fetching from a text fetches what the text names", "statement": "An id fetches that event, the code of a pointer to an event or an address that pointer, a note its id; codes of users and keys and all other texts are refused. The profile fetched is that of the user the text names, and exactly the relays of the text that are not virtual are remembered for that user. (False: virtual relays not in normal form are remembered; some naddr codes crash.)", "quantifier": "all texts", "why_tests_cant": "All texts a user may type.", "anchors": ["sdk/specific_event.go: FetchSpecificEventFromInput", "sdk/metadata.go: FetchProfileFromInput", "sdk/input.go: InputToProfile, InputToEventPointer"]}
{"id": "C157", "title": "Every list is looked up under its own kind", "statement": "Each of the lists and sets of a user is looked for in the store and asked for from relays under the kind the NIPs give it, and no two of them share a loader.", "quantifier": "all pairs of lists and sets", "why_tests_cant": "A swapped index among the tables shows only for the pair concerned.", "anchors": ["sdk/list.go: fetchGenericList", "sdk/lists_event.go, lists_profile.go, lists_relay.go, lists_topics.go", "sdk/replaceable_loader.go", "sdk/addressable_loader.go"]}
{"id": "C158", "title": "A nutzap carries the amount in a mint the recipient accepts", "statement": "A nutzap that is published names its recipient, the event it is for, one of the recipient's mints and proofs worth exactly the amount, and goes to the relays the recipient asks for; nothing is sent to users who do not accept nutzaps; what the wallet holds at one of those mints is used before paying over Lightning. (False: the proofs are never locked; if the signer fails the money is gone without a nutzap; a mint answering with certain words makes the wallet pay twice.)", "quantifier": "all wallets, infos of recipients, amounts and answers of mints", "why_tests_cant": "All answers of several mints, in every order of failures.", "anchors": ["nip61/nip61.go: SendNutzap, getEligibleTokensWeHave", "nip60/send.go: Send", "nip60/send-external.go: SendExternal"]}
{"id": "C159", "title": "The state and the patches of a repository are its own", "statement": "The state found is the first repository state in the store with the name of the repository; the patches found are all those in the store that name the repository, and one that names no other is read as its. (False: anyone's state for a repository of that name is taken; a patch naming two repositories comes with the other one.)", "quantifier": "all repositories and stores", "why_tests_cant": "All events a store may hold.", "anchors": ["nip34/repository.go: FetchState, GetPatchesSync", "nip34/patch.go: ParsePatch"]}
{"id": "C160", "title": "Subject and alt texts are the first of their tags; connection settings are used as given", "statement": "The subject and the alternative text of an event are the value of its first such tag that has one. Headers and TLS settings given for a connection are used; without either the library names itself. (With TLS settings alone it does not.)", "quantifier": "all lists of tags; all settings", "why_tests_cant": "All lists of tags.", "anchors": ["nip14/subject.go: GetSubject", "nip31/nip31.go: GetAlt", "connection_options.go: getConnectionOptions"]}
{"id": "C161", "title": "Fetching only ids", "statement": "FetchIDsOnly delivers exactly the ids of the relay's matching events, each once, whatever the frame size limit of the relay, and a channel that is closed has delivered all of them. (False: if the relay refuses, or its answer cannot be read, or the connection is lost, or the context is cancelled, the channel is never closed and no error is given; if the consumer stops, the goroutine never ends.)", "quantifier": "all sets of events on the relay, all frame size limits, all schedules of reader, forwarder and consumer, all sequences of messages", "why_tests_cant": "Which ids fit into which frame and how the goroutines interleave cannot be enumerated; a hang has no observable end.", "anchors": ["nip77/idsonly.go:FetchIDsOnly", "nip77/negentropy/storage/empty/empty.go:Empty", "nip77/negentropy/negentropy.go:Reconcile"]}
{"id": "C162", "title": "Both parties of a conversation derive the same key", "statement": "For any two private keys, the secret computed from the first and the public key of the second is the one computed from the second and the public key of the first, in NIP-04 and NIP-44; it is never all zeros; whoever a message is encrypted to, a private key exists that reads it; two plain keyers with valid private keys understand each other after any calls.", "quantifier": "all private keys, all public keys, all messages and histories of calls", "why_tests_cant": "There are 2^256 keys, and half of all public keys stand for a point of the other sign than the holder's.", "anchors": ["nip44/nip44.go: GenerateConversationKey, computeSharedSecret", "nip04/nip04.go: ComputeSharedSecret", "keys.go: GetPublicKey", "keyer/plain.go: Encrypt, Decrypt"]}
{"id": "C163", "title": "Key agreement refuses keys that are not valid", "statement": "A shared secret is computed just when the private key is hexadecimal and the public key is that of a point of the curve; a conversation key is refused for private keys that are zero or not below the order. (False: only when written as 64 digits in lower case; the empty string, \"00\" and the order in upper case pass as zero and give one and the same key with everyone; NIP-04 accepts zero.)", "quantifier": "all strings as private and public keys", "why_tests_cant": "All strings; the check compares strings, not numbers.", "anchors": ["nip44/nip44.go: GenerateConversationKey, computeSharedSecret", "nip04/nip04.go: ComputeSharedSecret"]}
{"id": "C164", "title": "Valid public keys are those of private keys", "statement": "IsValidPublicKey accepts a string of 64 characters just when it is GetPublicKey of a private key; every key GeneratePrivateKey makes has a valid public key; two private keys have the same public key just when they are equal or add up to the order. (GetPublicKey of zero is no error, but an invalid key.)", "quantifier": "all strings of 64 characters, all private keys, all random bytes", "why_tests_cant": "Whether some first coordinate belongs to no multiple of the generator cannot be searched.", "anchors": ["keys.go: GeneratePrivateKey, GetPublicKey, IsValidPublicKey"]}
{"id": "C165", "title": "Signatures over the curve", "statement": "With a private key of 1 to the order less 1, Sign succeeds on every event and CheckSignature accepts the result; a signature is accepted just when it solves the equation of BIP-340; its second half cannot be altered; an event whose signature still verifies after a change shows a collision of the hash or of the challenge modulo the order.", "quantifier": "all events, private keys, nonces, hashes and signatures", "why_tests_cant": "All keys and hashes; the four cases of signs of key and nonce.", "anchors": ["signature.go: Sign, CheckSignature", "keys.go: GetPublicKey"]}
{"id": "C166", "title": "Private messages arrive", "statement": "Between any two parties with private keys, a private message (NIP-17) that fits is prepared, and both its recipient and its sender unwrap their copies to exactly that message, with throw-away keys as GeneratePrivateKey makes them; one whose rumor has more than 40960 bytes of JSON is not prepared.", "quantifier": "all private keys, random bytes, messages, tags and histories of both keyers", "why_tests_cant": "All keys, messages and random draws; four encryptions and four signatures under different keys must fit together.", "anchors": ["nip17/nip17.go: PrepareMessage, ListenForMessages", "nip59/nip59.go: GiftWrap, GiftUnwrap", "keyer/plain.go", "nip44/nip44.go: GenerateConversationKey", "keys.go: GeneratePrivateKey"]}
{"id": "C167", "title": "Ecash is worth what the wallet records", "statement": "Proofs the wallet builds from a mint's answers carry the wallet's own secrets and the mint's amounts; from an honest mint every one of them is accepted by the mint and, with DLEQ proofs, by every receiver of a nutzap; a mint cannot pass off another signature unless its challenge falls on the single value its commitments allow. (False: a signature without a DLEQ proof is taken whatever point it names.)", "quantifier": "all secrets, blinding numbers, keys, hash functions and answers of the mint", "why_tests_cant": "All points of the curve and all answers of a mint that may cheat.", "anchors": ["nip60/helpers.go: createBlindedMessages, constructProofs", "nip61/nip61.go: VerifyNutzap"]}
{"id": "C168", "title": "Locked ecash is unlocked", "statement": "A wallet with a private key that receives proofs locked to its key (in any of the three ways to write it) presents a witness the mint accepts for each of them, leaves the others alone, and signs the outputs exactly if one was locked; a witness does not fit another secret. (False: a wallet without a key crashes at the first locked proof; one hash lock spoils everything received with it; nutzaps are never locked.)", "quantifier": "all lists of proofs, keys, locks and hash functions", "why_tests_cant": "All keys and both signs of the point behind each.", "anchors": ["nip60/receive.go: Receive", "nip60/helpers.go: signInput, signOutput", "nip61/nip61.go: SendNutzap"]}
{"id": "C169", "title": "A remote signer signs and encrypts as a local one", "statement": "With valid keys on both sides and after any history that did not crash the signer: an event the client has signed remotely comes back signed by the signer's key and is accepted by the client, the client learns the signer's public key, texts it encrypts or decrypts for third parties are those the third parties can read or wrote, and a request the authorizer refuses is answered with an error. (False beyond the size NIP-44 allows; and anyone who can publish an event crashes the signer or the client with four characters.)", "quantifier": "all private keys, nonces, histories of the signer, events and texts", "why_tests_cant": "Keys, encryption, two JSON formats and session state must fit together for all inputs.", "anchors": ["nip46/static-key-signer.go: HandleRequest", "nip46/bunker_session.go: ParseRequest, MakeResponse", "nip46/client.go: NewBunker, RPC, SignEvent, GetPublicKey, NIP44Encrypt, NIP44Decrypt"]}
{"id": "C170", "title": "A wallet is loaded correctly however its goroutines run", "statement": "However the goroutines that load a wallet interleave, a token in the wallet is one that was received; without deletions every received token is there once; and with deletions, once stored events have ended the wallet holds exactly the received tokens that were not deleted. (The last is false unless no event is being handled while the end of stored events is: a deletion can be lost, a token can be lost and another counted twice, and the loader can panic.)", "quantifier": "all sequences of token and deletion events and all interleavings of the loader's goroutines, read by read and write by write", "why_tests_cant": "The interleavings are not under a test's control.", "anchors": ["nip60/wallet.go: loadWallet, removeDeletedToken", "nip60/wallet.go: LoadWallet, LoadWalletWithHistory"]}
{"id": "C171", "title": "All devices of a user see the same wallet", "statement": "After any history of sends, payments and receipts, a device that loads what the wallet published, in any order, holds exactly the tokens of the wallet, each with its mint and proofs; a received token is there once. (False: a spend without change deletes the tokens for the other devices and keeps them here, as does a change token that cannot be made; an unsigned deletion is published; the `del` list is always empty; and a received token counts twice if its event comes back from a relay before the call ends.)", "quantifier": "all histories of calls, answers of mints and signers, and orders in which another device loads the events", "why_tests_cant": "Two devices and the relays between them, over unbounded histories.", "anchors": ["nip60/send.go: Send, saveChangeAndDeleteUsedTokens", "nip60/pay.go: PayBolt11", "nip60/receive.go: Receive", "nip60/wallet.go: loadWallet"]}
{"id": "C172", "title": "The ranking of an author's relays means what it says", "statement": "The score that ranks an author's relays never ranks better evidence lower (more recent events, list entries and hints, older attempts), does not overflow, ranks relays that only ever failed below all that were never tried, a relay of the author's list above one that is only hinted at, and a relay that answered as well as one never tried. (The last two are false: a hint of today beats a list nine days old; and a success counts with the date of the event, not of the fetch, so for an author whose newest event and list are a day old every relay just tried, though it works, is ranked below any relay never tried.)", "quantifier": "all clocks, timestamps, histories of Save calls and orders the sort may leave equal scores in", "why_tests_cant": "A real power of the age; all pairs of histories.", "anchors": ["sdk/hints/memoryh/db.go: Sum, TopN, Save", "sdk/hints/keys.go: KeyBasePoints", "sdk/tracker.go: TrackEventHints, TrackQueryAttempts"]}
{"id": "C173", "title": "Counts of sketches", "statement": "The count of a sketch is exact as long as the counted keys fall into at most 21 registers and no two into the same; it is never below the number of registers they fall into; and adding keys or merging sketches never lowers it. (The last is false: the 256th key can take the count from 1419 to 367. And in CountMany one relay decides: bytes of 64 or more make the count zero whatever the others answer, and bytes of 56 make it negative.)", "quantifier": "all public keys, offsets, registers and answers of relays", "why_tests_cant": "Logarithms of all register states; adversarial answers.", "anchors": ["nip45/hyperloglog/hll.go: Count, calculateEstimate", "nip45/hyperloglog/helpers.go: linearCounting, countZeros", "pool.go: CountMany"]}
{"id": "C174", "title": "Keys from seed words", "statement": "The words made for any random bytes validate and stand for exactly these bytes; a key derived from any seed is a valid private key and is the one NIP-06 and BIP-32 define (m/44'/1237'/0'/0/0), so that other wallets find the same key; the public key follows from the account's public key and chain code alone; and valid words decide the key. (The last is false: words are validated whatever the white space around them, but the text as it is gives the seed.)", "quantifier": "all random bytes, word lists, seeds and hash functions", "why_tests_cant": "All 2^256 entropies; equality with another standard's definition over a group of 2^256 elements.", "anchors": ["nip06/nip06.go: GenerateSeedWords, SeedFromWords, PrivateKeyFromSeed, ValidateWords"]}
{"id": "C175", "title": "The hints database in SQL ranks as the one in memory", "statement": "For the same saves TopN of the SQL hints database and of the one in memory rank an author's relays alike (scores of eight or more apart), TopN(pk, n) returns the n best relays, better evidence never ranks lower, and GetDetailedScores reports the relays TopN returns. (False: a save that goes back in time lowers a relay in SQL; time zero counts there; TopN(pk, 0) is empty there and everything in memory; and GetDetailedScores skips every relay whose score is not an integer below a million, such as one that has just entered the author's list.)", "quantifier": "all histories of saves, clocks, keys and orders the sort may leave equal scores in", "why_tests_cant": "A real power of the age, in two databases; all pairs of histories.", "anchors": ["sdk/hints/sqlh/db.go: TopN, GetDetailedScores, scorePartialQuery, Save", "sdk/hints/memoryh/db.go: Sum, TopN"]}
{"id": "C176", "title": "Members and admins of a group", "statement": "After any history of member and admin lists of a group, in any order, its members and their roles are those of the newest lists; a role name stands for the group's role of that name; and the roles page lists every role with its description, dated by the last change of the roles. (False: nobody ever leaves and no role is ever taken away: the lists that counted add up, also when the same list arrives twice; and the roles page carries the date of the last member list.)", "quantifier": "all groups, histories of events in any order, keys and role names", "why_tests_cant": "All histories and orders of arrival.", "anchors": ["nip29/group.go: MergeInAdminsEvent, MergeInMembersEvent, ToRolesEvent, NewGroup", "nip29/utils.go: GetRoleByName"]}
{"id": "C177", "title": "One spelling for the address of a mint", "statement": "NormalizeHTTPURL gives the spellings of one http(s) address one form: with and without https://, spaces around it, the default port, one slash at the end, the parameters in another order; normalizing the result again changes nothing, the result has the same parameters, and addresses of different things keep different forms. (False: an escaped & in a value makes two parameters, each time one layer of escapes goes until the parameter is dropped, only one slash goes each time and with parameters it is taken from the last value, and a bare name that begins with http gets http:// where any other gets https://.)", "quantifier": "all addresses, queries and escapes, for every url parser that reads them as they are written", "why_tests_cant": "All byte strings of a query; equality of results over all pairs of spellings.", "anchors": ["normalize.go: NormalizeHTTPURL", "nip60/token.go", "nip60/wallet.go", "nip61/info.go"]}
{"id": "C178", "title": "A wallet loaded from relays sees what its devices published, and only that", "statement": "LoadWallet asks relays for exactly the events a wallet publishes (settings, tokens, deletions of tokens, and history if wanted), no event by both subscriptions; whatever else the relays hold, a token is loaded exactly if it is a readable token event of the user's own key that no event of that key deletes; events of other keys change nothing; and after any history of receiving and spending on one device, a second device that loads from relays holding what was published (where spent tokens may already be erased) has exactly the same tokens.", "quantifier": "every content of the relays, every order and repetition of delivery, every history of calls", "why_tests_cant": "the relays may hold anything, and which events are needed depends on the whole history of calls on another device", "anchors": ["nip60/wallet.go: LoadWallet, loadWalletFromPool, loadWallet", "nip60/send.go: Send, saveChangeAndDeleteUsedTokens", "nip60/token.go: toEvent, parse", "filter.go: Matches"]}
{"id": "C179", "title": "A System has what it was configured with", "statement": "Whatever modifiers NewSystem is given, in any order and however often, every database, cache and list of relays is the one last given, or else the documented default; relays asked for profiles, follow lists, relay lists and other events beyond the user's own come from the list configured for that purpose; every key-value store it made or was given is closed exactly once, the one in use only by Close; and Close releases what the system holds.", "quantifier": "every list of modifiers, every position of the rotations, every user's own relays", "why_tests_cant": "modifiers can be combined in unboundedly many orders; an empty or repeated one only shows later, when a request is made", "anchors": ["sdk/system.go: NewSystem, System.Close, WithHintsDB, WithRelayListRelays, WithMetadataRelays, WithFollowListRelays, WithFallbackRelays, WithJustIDRelays, WithUserSearchRelays, WithNoteSearchRelays, WithStore, WithRelayListCache, WithFollowListCache, WithMetadataCache, WithKVStore", "sdk/replaceable_loader.go: determineRelaysToQuery"]}
{"id": "C180", "title": "What is published arrives", "statement": "If a user signs a note with any valid private key and publishes it to a relay that reads and writes with this library, the relay confirms it and the publisher's connection reads the confirmation as such; and whatever anybody sends to the relay before and after, another user who asks the relay with any filters that match the note gets, on the subscription, exactly the note that was signed. (False of notes whose texts are not UTF-8: they are signed, but the relay reads another text and refuses them.)", "quantifier": "every hash and signature library, every private key, every note in UTF-8, every sequence of texts received by the relay before and between, every subscription number and label, every list of plain filters, duplicate checks by id or none", "why_tests_cant": "it joins signing, four encodings, two decodings by different JSON readers, matching and the dispatch of the connection, for all contents", "anchors": ["event.go: Event.Sign", "signature.go: CheckSignature", "envelopes.go: ParseMessage, EventEnvelope, ReqEnvelope, OKEnvelope", "filter.go: Filters.Match", "relay.go: Relay.ConnectWithTLS"]}
{"id": "C181", "title": "Authenticating over a connection", "statement": "When a relay asks a connection to authenticate, the connection reads the relay's challenge exactly as it was given and keeps it until it is given another. If the user then authenticates with any valid private key, a relay that reads and validates with this library takes the sender of the answer for the owner of a key exactly if that is the user's key, the challenge and the address are the relay's own and the answer was made within ten minutes; it then confirms, and the connection reads the confirmation; otherwise it refuses. So no other relay and no other connection can use the answer. Nobody is taken for the owner of a key without a signature under that key. (False of challenges that are not UTF-8: the text of the answer has another challenge in it and the relay that asked refuses it.)", "quantifier": "every challenge, address, private key, time, hash and signature library; every relay (address, challenge given, clock) that gets the text; every other text a relay may be sent", "why_tests_cant": "it joins the message reader, signing, two encodings and validation for all challenges, including those that look like messages", "anchors": ["relay.go: Relay.Auth, Relay.ConnectWithTLS", "nip42/nip42.go: ValidateAuthEvent", "envelopes.go: AuthEnvelope, OKEnvelope, ParseMessage", "helpers.go: extractSubID"]}
{"id": "C182", "title": "A sync leaves both stores with everything", "statement": "After a negentropy sync that reported no error, in the directions asked for every event the filter matches that one store had is in the other as well; nothing else was added to either, no event twice, and nothing in a direction not asked for.", "quantifier": "all pairs of stores, filters, directions and interleavings of the goroutines of the sync", "why_tests_cant": "it joins the vectors, the session of many messages, the channels and the concurrent batches, over all stores and schedules", "anchors": ["nip77/nip77.go: NegentropySync", "nip77/idlistpool.go: idlistpool", "nip77/negentropy/negentropy.go: New, Start, Reconcile", "nip77/negentropy/storage/vector/vector.go: Vector"]}
{"id": "C183", "title": "Whatever a mint answers, a payment is right or refused", "statement": "Whatever a mint answers to the requests of the wallet, the program does not crash; an answer is taken for one only if the mint said so; and a send that succeeds hands over ecash for exactly the amount asked for.", "quantifier": "all answers of mints, proofs, amounts and locks", "why_tests_cant": "mints are not trusted: every malformed or dishonest answer would have to be tried, in every combination with what the wallet holds", "anchors": ["nip60/client/client.go: parse, httpGet, httpPost, GetActiveKeyset, GetKeysetById", "nip60/swap.go: Wallet.swapProofs, splitIntoPrincipalAndChange", "nip60/helpers.go: constructProofs, calculateFee", "nip60/send.go: Wallet.Send"]}
{"id": "C184", "title": "The relays an event was seen on are remembered", "statement": "A System has its pool report every event it hands over and every further copy of it. After any run of a fetch over several relays, GetEventRelays has, for every event handed over (that is not ephemeral, a profile or a relay list), the relay it came from; every relay that sends a copy after the event was handed over is in the list from then on; every relay in the list sent a message under that id (first eight bytes), and is there once. False: that every relay that sent the event is remembered (a copy that arrives before the first one was taken from its subscription is forgotten, although both relays are honest and the fetch ends in order), and that only relays that have the event are (a forgery under the id is reported before its signature is checked).", "quantifier": "every number of relays, every interleaving of connecting, receiving, taking, emitting, end-of-stored, closing and cancelling, every sequence of messages (honest or forged), every event id and every table of relay addresses up to 255 bytes", "why_tests_cant": "The outcome depends on how messages from different relays interleave with the goroutines that take them: a test sees one schedule.", "anchors": ["sdk/tracker.go:TrackEventRelaysD", "sdk/tracker.go:TrackEventHintsAndRelays", "sdk/event_relays.go:trackEventRelay", "sdk/event_relays.go:GetEventRelays", "pool.go:subManyEose", "sdk/system.go:NewSystem"]}
{"id": "C185", "title": "A wallet does not block", "statement": "However the goroutines that use a wallet are interleaved (the ones that handle events from relays, any number of Send, PayBolt11, Receive, AddMint and other calls), no two of them are between locking and unlocking the same mutex, and if no token event is handled while another goroutine is in a Send or PayBolt11, all of them finish whatever the order. False in general: some interleaving blocks all of them for good exactly if one goroutine handles a token event while another is in a Send or PayBolt11 that gets as far as publishing an update, because they take the two locks in opposite orders; the change token that Send itself publishes, echoed by a relay, is enough.", "quantifier": "every number of goroutines, every sequence of operations in each, every number of updates published and every interleaving", "why_tests_cant": "A deadlock needs one particular interleaving of two goroutines; a test that does not hit it passes, and a test that does hangs.", "anchors": ["nip60/wallet.go:loadWallet", "nip60/wallet.go:Wallet", "nip60/send.go:Send", "nip60/send.go:saveChangeAndDeleteUsedTokens", "nip60/pay.go:PayBolt11", "nip60/receive.go:Receive"]}
{"id": "C186", "title": "Deletions that arrive during a payment do not disturb it", "statement": "If deletions of other tokens are handled while a Send is waiting for the mint, then after the Send the deleted tokens are gone, every token neither spent nor deleted is kept, the change is added, and the spent tokens are gone if their positions are below the number of tokens the deletions left. False in general: a spent token at a later position stays in the wallet (paying 4 out of 8 leaves 12), and if the deletion is of the token being spent, another token is dropped although nobody spent or deleted it.", "quantifier": "every wallet, every choice of tokens, every amount, every mint, every sequence of deletions handled after the tokens were chosen", "why_tests_cant": "It takes a deletion that arrives in the window in which the mint is asked, and depends on the positions of tokens in the wallet.", "anchors": ["nip60/send.go:Send", "nip60/send.go:saveChangeAndDeleteUsedTokens", "nip60/wallet.go:removeDeletedToken", "nip60/wallet.go:loadWallet"]}
{"id": "C187", "title": "A live subscription over several relays hands each event over once, and asks every relay for what the caller wanted", "statement": "The channel of SubscribeMany yields an event at most once however many relays send it and however often; the first valid copy of an event is handed over unless its connection ends first; and every relay is asked for the events the caller's filters describe. This is false of the code in three ways. An event is remembered for a minute after it was last heard of: a relay that sends its copy later has it handed over again. A forged copy counts as a copy, so a relay that sends one first keeps the genuine event of another relay from being handed over. And when one relay's connection breaks, the filters shared by all relays are set to ask only for events from then on, so that a relay reached for the first time after that is never asked for older events. Proved: an event whose copies come at most a minute apart is handed over at most once, and so is any event until the first EOSE; the first copy, if valid, is handed over, still waits or was lost with its subscription; each subscription asks for what came after the last break of any relay.", "quantifier": "every number of relays, every sequence of messages from them at any times, every order of connections, breaks, EOSEs, sweeps of the table of ids and reads by the consumer", "why_tests_cant": "It depends on how copies, sweeps of a shared table and reconnections fall in time; the sweep happens once a minute, and looks at an entry and deletes it in two steps.", "anchors": ["pool.go:SubscribeMany", "pool.go:SimplePool.subMany", "pool.go:seenAlreadyDropTick", "relay.go:Relay.ConnectWithTLS"]}
{"id": "C188", "title": "What a remote-signing client sends is encrypted for its signer, and only its signer can answer", "statement": "Every request a NIP-46 client sends is encrypted with the key agreed between the client and the signer it was given, and it takes as responses only what is encrypted with that key. This is false of the code: NewBunker ignores the error of the key agreement, which leaves a key of 32 zero bytes. With a signer key that is not a point of the curve in hexadecimal (an npub, for instance) the client signs and sends its requests all the same; anyone can read them, and anyone's answer is taken for the signer's. Proved: with a private key the agreement fails exactly for such targets; between two valid keys the request can be read with the key the signer computes.", "quantifier": "every client key, every target, every request and response that fits, every nonce", "why_tests_cant": "A test uses valid keys; that an invalid one yields a client that works, in the clear, depends on an ignored error and the value left behind by it.", "anchors": ["nip46/client.go:NewBunker", "nip46/client.go:BunkerClient.RPC", "nip44/nip44.go:GenerateConversationKey"]}
