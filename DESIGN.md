# Formal model of nbd-wtf/go-nostr in Lean 4

This directory holds a Lean 4 model of go-nostr (source in `/repo`, read as text, never run here) and
kernel-checked proofs of the properties in `properties.jsonl`.

## Layout

- `lean/Verif/<Area>/Model.lean` — the code, function by function; every definition cites file and lines.
- `lean/Verif/<Area>/Spec.lean` — small specifications written from the English property, not from the model
  (sometimes inlined at the head of the theorem file when it is a line or two).
- `lean/Verif/<Area>/Lemmas.lean` — helper lemmas.
- `lean/Verif/<Area>/Theorems.lean` — property theorems, each with a non-vacuity `example` beside it.
- `MANIFEST.json` — property → theorem names and status. `seeded/LOG.jsonl` — mutation experiments.

## Modelling conventions

- A Go `string`/`[]byte` is `List UInt8` (`Bytes`); Go strings are byte strings, so nothing assumes UTF-8 unless stated.
- `int`, `int64`, `Timestamp` are `Int` unless the property is about wrap-around, then `BitVec`/explicit modulus.
- A nil slice that the code distinguishes from an empty one is `none` of an `Option (List _)`.
- An error return is a value (`Except`, `Option` or a sum type). A panic is a separate outcome (`Res.panic`),
  never merged with an error and never hidden by a default value.
- A loop is structural recursion or a fold; an index loop keeps its index when index arithmetic matters.
- Goroutines, channels, mutexes, wait groups and atomics are steps of an explicit state machine; a theorem about
  "every schedule" quantifies over every sequence of steps.
- Cryptographic primitives, hash functions, clocks, the network and third-party libraries are parameters; the laws
  assumed of them are hypotheses of the theorem (never axioms).
- When the code violates a property, the negation is proved with a concrete witness (`…_false`/`not_…`) and the part that
  holds is kept as a theorem with the suffix `_partial`.

## Plan per property

- **C01 Event serialization is injective.** escapeString and serializeEventInto over List UInt8; proof by left/right cancellation of the unambiguous frame.
- **C02 Escaped strings decode to the original.** independent RFC 8259 decoder as spec; induction on the string, byte case split by kernel decide over all 256 bytes.
- **C03 CheckID accepts exactly the computed id.** sha256 as a parameter H : bytes -> 32 bytes; loop modelled index by index with explicit bounds outcome.
- **C04 A signed event verifies.** schnorr as an abstract scheme with the correctness law verify(pk sk, h, sign sk h); Sign as a state update.
- **C05 A valid signature authenticates every signed field.** model with abstract verify; corollary of C01; negation for the ID field with a witness.
- **C06 Filter.Matches decides NIP-01 matching.** Go nil slices as Option (List _); map iteration modelled over an association list in any order; equivalence with a declarative predicate.
- **C07 Filter lists are a disjunction.** list model; permutation invariance by List.Perm.
- **C08 FilterEqual is an equivalence that respects matching.** reflexivity in full; symmetry/transitivity/congruence refuted by witnesses for duplicates and nil-vs-empty, proved under duplicate-freeness and agreement on nil.
- **C09 Filter.Clone is an equal, independent copy.** heap model with slice/map/pointer cells: clone allocates fresh cells; frame theorem for arbitrary writes.
- **C10 GetTheoreticalLimit bounds every conforming result.** injection of matches into a product of the filter's lists; note on filters whose d values match a non-first d tag.
- **C11 Kind classes partition the kind space.** omega over Int.
- **C12 Tag lookups return the right tag.** loop models against a split-based specification (prefix without match, match, rest).
- **C13 Prefix-based tag operations keep the other tags.** index loop with fuel-free well-founded recursion; Perm theorem; panic on the empty prefix is a separate outcome (negation witness).
- **C14 Tag cloning copies the tags.** direct model; negation for every non-empty receiver.
- **C15 Event comparators are consistent total orders for sorting.** Int-valued comparison model; order laws; nil pointer branch covered.
- **C16 A subscription id resolves to its own subscription.** decimal formatting/parsing modelled on digits; round-trip by induction.
- **C17 The pre-parser never crashes the reader.** strings.Index and slicing with explicit panic outcome; negation witnesses; exact characterisation of the panic set.
- **C18 The pre-parser agrees with the parsed event.** model of the canonical compact layout: proved for it; negation witnesses for relay-chosen layouts.
- **C19 Hex validation accepts exactly 32-byte lowercase hex.** byte-level model; Go rune decoding noted: any non-ASCII byte is rejected either way.
- **C20 NormalizeOKMessage is idempotent and always yields a machine-readable prefix.** byte-level model; idempotence under the stated condition on the prefix.
- **C21 Event JSON round trip.** easyjson jwriter modelled as spec'd in its docs; decoder as independent JSON parser; round-trip by induction.
- **C22 Filter JSON round trip preserves meaning.** field-level codec model; refuted for present-but-empty lists; partial for the rest.
- **C23 Envelopes round trip.** structure-level model over JSON values; label disjointness; note unescaped subscription ids.
- **C24 Only matching, authentic events of that subscription are delivered.** relay/subscription state machine with explicit pending dispatch goroutines; invariant by induction over steps.
- **C25 No event is delivered twice or invented.** same machine; multiset accounting invariant pending + delivered + dropped = accepted.
- **C26 EOSE is signalled once, after all stored events.** wait-group counter as state; invariant relates counter to pending pre-EOSE goroutines.
- **C27 Events is closed exactly once and never written after.** state machine with the mutex as atomic steps; invariant proved when nothing is accepted before Fire; negation trace otherwise.
- **C28 CLOSE is sent at most once, and not after CLOSED.** compare-and-swap as atomic step; counting invariant.
- **C29 Publish reports success only on an accepting OK.** state machine of concurrent publish calls and the callback table; negation trace for disconnect; partial otherwise.
- **C30 Concurrent publishes do not steal each other's OK.** same machine; refuted for two publishes of the same id, proved for distinct ids.
- **C31 A failed Subscribe leaves nothing behind.** control-flow model with table state; negation witness for the not-connected path and multi-filter Count.
- **C32 FetchMany emits each event at most once.** machine with atomic LoadOrStore; at-most-once in full; completeness refuted by a forged earlier copy, partial when all copies are valid.
- **C33 FetchMany's channel is closed exactly once, after everything was emitted.** machine with worker states and wait-group counter.
- **C34 FetchManyReplaceable returns the newest version.** fold over deliveries with the duplicate check as coded; negation (check is inverted), exact characterisation of what is returned.
- **C35 SubscribeMany ends cleanly when all relays are done.** machine with pending counter, non-atomic Dec/Value; two negation traces (duplicate urls never close; double close race); partial for what holds.
- **C36 The EOSE notification fires once, after all relays.** machine with per-relay eosed flag and wait-group; counter invariant (never negative).
- **C37 PublishMany yields exactly one result per url.** worker decision function over outcomes; buffer capacity invariant over all interleavings.
- **C38 Authentication is attempted at most once per subscription attempt.** worker automaton; induction over relay message sequences.
- **C39 A failing relay is penalised.** state machine of EnsureRelay and the ticker; negation: no reachable state takes the refusing branch; penalty arithmetic theorem.
- **C40 EnsureRelay keeps one live connection per normalized url.** same state machine; invariant.
- **C41 Reconnection backoff is bounded and grows.** interval arithmetic on nanoseconds as Nat; induction.
- **C42 Paginator returns every event in range once, up to the limit.** loop model with explicit backing array aliasing; negation witnesses; partial theorems for limit and single-page behaviour.
- **C43 CountMany merges like a union.** register-wise max as a semilattice; permutation and idempotence; note unsynchronised access not modelled beyond atomic merges.
- **C44 Negentropy varint round trip.** buffer-index loop model; induction on base-128 digits; panic branch explicit.
- **C45 Negentropy bounds and timestamps round trip.** stateful encoder/decoder pair; induction over the sequence.
- **C46 Minimal bound separates neighbours.** lexicographic order on (timestamp, id); negation for ids sharing 16 bytes; proof otherwise.
- **C47 Fingerprint accumulator adds modulo 2^256.** limb-wise model; negation for the lost-carry corner; equality with addition when no limb hits it; permutation invariance.
- **C48 FindLowerBound returns the insertion point.** binary search model; standard lower bound theorem.
- **C49 SplitRange covers the range without gaps or overlaps.** bucket arithmetic; partition theorem.
- **C50 Reconciliation finds exactly the differences.** protocol model over abstract messages; per-round invariant that the uncovered ranges shrink; soundness for any peer answering from its set; completeness for the id-list base case and by induction on rounds. With frame size limits a reply may be cut short in three ways; the same facts are proved of the relation that allows them, with a weight over the first open range for termination.
- **C51 bech32 round trip.** bech32 modelled from BIP-173 (external library); polymod linearity; convert-bits round trip by induction.
- **C52 npub/nsec/note codes round trip.** composition of hex, bit regrouping and bech32 theorems.
- **C53 nprofile/nevent/naddr codes round trip.** TLV reader/writer model; round trip when every entry is <= 255 bytes; negations for longer entries, empty identifier, kind 0.
- **C54 nip19.Decode never panics.** TLV-level model with panic outcome; negation witness (short kind entry); characterisation.
- **C55 NIP-44 padding round trip.** padding on Nat with log2; arithmetic bounds proved for all n, not by enumeration.
- **C56 NIP-44 encrypt/decrypt round trip.** HKDF/ChaCha20/HMAC as parameters with only the XOR-stream law; base64 modelled fully; length bounds proved.
- **C57 NIP-44 rejects tampered or malformed payloads.** decision-logic theorem: success implies mac equality over nonce++ciphertext; panic witness for a payload of newlines.
- **C58 NIP-04 encrypt/decrypt round trip.** block cipher as an invertible parameter; CBC and PKCS#7 modelled; panic witnesses for malformed content.
- **C59 NIP-49 encrypted key round trip.** layout model; AEAD and scrypt as parameters; panic witness for short payloads.
- **C60 PoW difficulty counts leading zero bits.** bit-level specification; induction on bytes; finite tables by kernel decide over all 256 bytes.
- **C61 DoWork returns only valid proofs of work.** arithmetic progression per worker; partition theorem; result soundness with abstract hash.
- **C62 HyperLogLog registers are a join-semilattice homomorphism.** registers as functions with max; fold lemmas.
- **C63 HyperLogLog register values and indices stay in range.** bit arithmetic on 56 bits; offset range theorem.
- **C64 Event and filter HLL offsets agree.** both computations modelled; equality theorem.
- **C65 Pointers convert to tags, filters and references consistently.** direct models; equivalence for event pointers; negation witnesses and partial theorem for entity pointers.
- **C66 Thread root and parent are found per NIP-10.** loop model against declarative spec.
- **C67 Comment threads per NIP-22.** loop model against declarative spec.
- **C68 Expiration is read correctly.** direct model with decimal parser.
- **C69 Auth events validate exactly when fresh, signed and for this relay and challenge.** decision logic with URL parsing abstract.
- **C70 Gift wrap round trip authenticates the sender.** encryption and JSON as inverse pairs; adversarial statement over every wrap.
- **C71 The memory KV store is a map.** refinement to Key -> Option Value over op lists.
- **C72 Known-relay lists survive storage.** codec model; round trip for <= 255; negation at exactly 256; history theorem.
- **C73 Relay hints: best known relays come first.** state machine; score monotonicity by integer arithmetic.
- **C74 Dataloader answers every request with its own key's result.** batcher state machine; partition invariant; negation for the documented key-uniqueness guarantee.
- **C75 Replaceable loader returns the newest event per pubkey.** fold over emitted events.
- **C76 Addressable loader keeps the newest event per (pubkey, d).** fold; keyed-list invariant.
- **C77 Merging relay lists loses nothing.** loop model; negation witness; exact characterisation (stops at first duplicate).
- **C78 List and set parsing keeps one item per value, in order.** dedup fold; negation: parseEventRef rejects every tag so bookmark and pin lists are always empty.
- **C79 Concurrent web-of-trust loads all complete.** state machine of callers and the call slot; negation trace (late waiter); partial for waiters registered before completion.
- **C80 Relay rotation visits every relay and never panics.** Int64 wrap-around model; negation at overflow; rotation theorem below it.
- **C81 Cached values belong to the requested key.** key-hash model; negation witness; partial when suffixes differ.
- **C82 Spent tokens leave the wallet.** token-list model; negation when there is no change; partial with change.
- **C83 Token selection covers amount and fee.** fold model with uint64 arithmetic.
- **C84 Wallet metadata follows the newest event.** fold model; negation (last processed wins); characterisation.
- **C85 Nutzaps are locked to the recipient.** decision model with key parsing contract; negation for every 32-byte key.
- **C86 Remote signer sessions belong to their client.** sorted parallel arrays; map refinement; negation for the dynamic signer across handlers.
- **C87 Unauthorized remote signing requests get no result.** decision model of HandleRequest with crypto abstract.
- **C88 A keyer's Decrypt inverts its Encrypt.** dispatch model with abstract nip44; negation for BunkerSigner and EncryptedKeySigner; proof for KeySigner.
- **C89 Group state follows the newest metadata.** state model; negation (private/closed/about never reset); round trip partial.
- **C90 Content blocks tile the text.** index loop with abstract matchers/decoders; tiling invariant.
- **C91 Structured event kinds round trip.** tag-level codecs; round trips where they hold; negations for nip52 image and nip94 m/thumb.
- **C92 Decoded codes are well formed.** invariant of the TLV loops over arbitrary payloads.
- **C93 Fetching a list returns the newest version the system can see.** decision function over the stores' and the network's answers; negations for sets and short keys.
- **C94 Deleted wallet tokens stay deleted.** fold over events; the swap-delete loop proved to remove exactly the given id; negation for tokens arriving after their deletion.
- **C95 Every answered remote signing request is answered under its own id.** decision model of HandleRequest over all methods; negation for empty results.
- **C96 No remote signing request crashes the signer.** panic-tracking model of HandleRequest with the session table invariant; negation for get_relays without a relay source.
- **C97 A keyer reports the key it signs with.** state machine over the calls with the cached key; invariant, and negation for encrypted keys.
- **C98 A content block points to what its text says.** induction over the scanning loop with the concrete nip19 decoder; url.Parse is a parameter.
- **C99 Unknown members of a received event are ignored.** exact characterisation of the decoder over all layouts of an object; negation: every such event is rejected.
- **C100 Negentropy messages round trip.** composition of the relay parser and the NIP-77 parser over the gjson model; refuted for error messages.
- **C101 No relay message crashes a negentropy sync.** exact characterisation of the messages that panic.
- **C102 A remote signing call gets the answer to its own request.** state machine of the calls and the dispatcher goroutine; trace invariant.
- **C103 The remote signing client neither crashes nor stalls.** negations by closed runs of the machine and an invariant of the stalled state; absence of crashes without cancellations and repeated answers.
- **C104 Authorization urls reach the handler.** invariant of the machine: the handler is never called.
- **C105 A remotely signed event is the event that was to be signed.** decision function over the JSON decoder; id and signature proved, identity of the event refuted for every pair of events.
- **C106 A negentropy sync ends.** state machine of the reader, the two bounded channels and the drains; invariant, termination measure; refutation for one-way syncs.
- **C107 Every id a sync finds is transferred once.** state machine with explicit list memory and pool; ownership invariant; refutation by a run in which giveback is interrupted.
- **C108 No message of the other side crashes a reconciliation.** the model of Reconcile with the state of its channels; refuted for every client and store; proved for messages with increasing bounds.
- **C109 What a user types is read as the key or event it says.** refinement of the decoder that keeps the values returned together with an error; the values are characterised; refuted by codes of the wrong length.
- **C110 A pointer leads to the event it points to.** function of the surroundings (store, hints, relays by parameters); soundness, completeness, counterexamples for addressable events and profiles.
- **C111 The relays a pointer names are asked, and named first in the answer.** same model; the order of the returned relays and the set of relays asked.
- **C112 The outbox relays are the best ones known for the user.** machine over calls with the cache and its clock; invariant on cache entries; counterexamples for n and for fallback relays.
- **C113 A feed page has the users' events before the given time.** function of the stored mark, store and relays; soundness and progress of the mark proved; completeness refuted.
- **C114 A fetched profile is the user's and never gets older.** machine over calls with the slot cache of C81, the store and the refresh times; invariants; counterexamples by cache slots and refused writes.
- **C115 Only real relay hints are recorded from events.** exact characterisation of the recorded hints over the model of nip27 blocks; counterexamples for relay lists, codes without author, spelling.
- **C116 NormalizeURL gives every relay one name.** function over a parameter for the url parser; idempotence from a read-back contract; counterexamples for capitals and long schemes.
- **C117 A NIP-05 identifier is read, normalized and looked up consistently.** the expression written out as a function and proved equal to the language it denotes; lookups characterised.
- **C118 A relay management request is read as the call it names.** function over JSON values; exact characterisation of what is decoded and of what crashes; counterexamples for grantadmin and revokeadmin.
- **C119 Protected events are recognised, also inside reposts.** text search over the model of the JSON encoder: exact characterisation for the package's own layout; counterexamples for others.
- **C120 Private messages reach the recipient, from the one who sent them.** composition of the models of nip59, keyer, nip44 and JSON; PublishMessage over relays whose answers depend on everything before; counterexamples for long messages, since, crashes and AUTH.
- **C121 The relay hints databases on disk keep the newest times.** ordered maps as sorted lists, invariant over histories, refinement to the model of C73; SQL upsert with `excluded`, refuted by a two save history; Badger's optimistic transactions as a state machine.
- **C122 The key-value stores on disk are maps.** refinement of the mathematical map of C71; a strict variant for LMDB; optimistic transactions as a state machine with an invariant on read versions.
- **C123 A connection serves writes in order and ends cleanly.** state machine with all goroutines as processes; invariants; a decreasing measure and a progress theorem for the ending; closed runs for the stall and the crash, and an invariant that the stall lasts.
- **C124 Paying, receiving and moving wallet money loses none.** functions over a mint whose answers are parameters; exact effect on success; closed counterexamples for each loss; a theorem that moving money never works when spending costs a fee.
- **C125 The amount of a Lightning invoice is read exactly.** function over bytes; exact for every amount of up to 14 digits and every unit; counterexamples for unknown units and large numbers.
- **C126 The fast message parser reads what the default one reads.** visitor as a state machine over tokens; proof by induction over values that it computes a specification given member by member; an invariant of the nil pointers over all token sequences; agreement with the models of C21 and C22; counterexamples.
- **C127 Messages keep their contents.** memory of blocks and slices with Go's append; invariant that lists of one message do not overlap; for all pairs of messages the first shows the second's tags.
- **C128 A query returns what the relay has.** the machine of C24-C28 with the goroutine of QueryEvents and its consumer; invariants by induction over runs; counterexample runs.
- **C129 A count is the relay's answer.** two-goroutine machine; invariants by induction over runs; proof that the stuck state is final; counterexample runs.
- **C130 Several stores behave as one.** functions over lists of answers with sorting by its contract; machine of forwarding goroutines with an accounting invariant; counterexamples.
- **C131 A verified nutzap is backed by the mint.** the verifier over an abstract module with the hash as a parameter; equivalence with a specification; completeness and special soundness by algebra; refutations.
- **C132 Live activities and media metadata are what the tags say.** folds over tags proved equal to a field-by-field specification by induction from the right; round trip computed from it; refutations.
- **C133 A live feed ends cleanly.** machine of the main loop and one goroutine per user; invariant that the counter counts what is left; progress by a measure; refutations for all schedules.
- **C134 A live feed misses nothing.** machine with the pointer to the filter's time; invariants by induction over runs; counterexample runs, with proof that the loss is final.
- **C135 A web of trust has everyone in it.** machine of lister, workers, closer and receiver; counting invariant (multiset of keys), decreasing measure; filter library as a parameter.
- **C136 Changed wallet settings are what others read.** the three functions over a parametric environment; composition with the reader model of C84; inductions over the urls.
- **C137 A prepared note tags whom and what it mentions.** fold over the blocks of C90/C98; invariance of the lookups under the added tags; closed form of one and two runs.
- **C138 References are found where they are.** the regular expression as a scanner; equivalence with a declarative definition of a mention, with proof that mentions do not overlap.
- **C139 A batch load ends when all its callers have given up.** state machine over watchers and a counter, atomic and not; counting invariant; runs for the failures.
- **C140 A user's lists are looked for at their relays, then at the usual ones.** the function over arbitrary sources; induction over the loop; non-interference between kinds.
- **C141 Each stored record belongs to one thing.** byte-level model of the keys; injectivity by cancelling the parts.
- **C142 A new private key is a random valid key.** the arithmetic on 40 random bytes; counting the inputs that lead to a key by residue classes.
- **C143 A signer made from a text is the one the text describes.** composition of the models of nip19, nip49 and nip05; shape of codes to tell the formats apart.
- **C144 A media client asks for exactly what the user wanted.** the server as an arbitrary function; tokens read back by the event parser and checked as a server would; composition with the signature and JSON models.
- **C145 An upload sends the file with its description, and signs for it.** model of the form as a list of parts; the token read back by the event parser.
- **C146 Both builds accept the same events.** the C library as a parameter with the contract that it computes the same scheme; hex decoding into a fixed array by recursion.
- **C147 Relay information always names the relay.** entries as a sum type with Go's equality; induction on the added numbers; case analysis of the fetch.
- **C148 Group kinds and addresses are recognised.** loop invariant of the binary search; split at the quote.
- **C149 Names of wiki articles have one normal form.** Unicode tables as parameters with their facts for ASCII; pointwise form of the result.
- **C150 A patch belongs to the repository it names.** fold over the tags from the end.
- **C151 A message of a relay reaches the one it concerns and nobody else.** the body of the loop over the byte-level models of pre-parser and parser; what it does judged by a separate predicate on the text.
- **C152 A batch of filters for relays gives every event once and then ends.** the machine of the many-relay query (C32, C33) extended by forwarders and a closer; invariant over all schedules.
- **C153 A query for one event answers with an authentic event or after all relays ended.** runs of the many-relay query that stop at the first event.
- **C154 A search for users gives the users found.** map over the events, with the models of filter matching and profile parsing.
- **C155 A confirmed name was confirmed within a week.** fold over the calls; induction with the remembered answer.
- **C156 Fetching from a text fetches what the text names.** case analysis over the byte-level model of NIP-19 codes.
- **C157 Every list is looked up under its own kind.** the tables as functions of names; case analysis.
- **C158 A nutzap carries the amount in a mint the recipient accepts.** composition of the models of Send and SendExternal; induction over the loops.
- **C159 The state and the patches of a repository are its own.** the filters over the model of matching (C06), with the parsers of C91 and C150.
- **C160 Subject and alt texts are the first of their tags; connection settings are used as given.** induction on the tags; case analysis.
- **C161 Fetching only ids.** The client of the reconciliation model over no items, followed exactly by induction on what is left; a transition system of reader, forwarder and consumer with an invariant on what is still to come..
- **C162 Both parties of a conversation derive the same key.** the group of secp256k1 over Mathlib's Weierstrass curves; the primes by Pratt certificates and the order of the generator by an addition chain, both checked by the kernel; every point is a multiple of the generator.
- **C163 Key agreement refuses keys that are not valid.** comparison of strings of digits as numbers, by induction; the group as for the previous property; concrete keys for the negation.
- **C164 Valid public keys are those of private keys.** the number of points of the curve is the prime order of the generator: a bound by counting, Lagrange, Cauchy, and no point of order two.
- **C165 Signatures over the curve.** BIP-340 over the group of secp256k1, as btcec documents it, discharging the contract that C04 assumes.
- **C166 Private messages arrive.** C120 with its assumptions about keys, agreement and signatures discharged by C162, C164 and C165.
- **C167 Ecash is worth what the wallet records.** blind signatures over the group of secp256k1 as a module over the integers modulo its order; two transcripts with different challenges determine the key.
- **C168 Locked ecash is unlocked.** BIP-340 as proved for C165, induction on the proofs.
- **C169 A remote signer signs and encrypts as a local one.** the models of signer and client composed over secp256k1, with the round trips of NIP-44, NIP-04 and event JSON; invariant on the sessions.
- **C170 A wallet is loaded correctly however its goroutines run.** small-step model of the goroutines; invariants over all runs; refinement to the model of C94 for the quiet runs; three concrete runs for the refutations.
- **C171 All devices of a user see the same wallet.** the published events beside the models of C82 and C124; invariant over histories, composed with C94.
- **C172 The ranking of an author's relays means what it says.** the score over the real numbers with the code's truncation; monotonicity of real powers; composed with the database of C73.
- **C173 Counts of sketches.** the estimate over the real numbers with the code's thresholds; bounds of the logarithm from its series; composed with the registers of C62.
- **C174 Keys from seed words.** base-2048 digits and their inverse; refinement to a relational definition of BIP-32 over secp256k1; homomorphism of the scalar multiplication.
- **C175 The hints database in SQL ranks as the one in memory.** the score of the query over the real numbers, its distance to that of C172, and the histories of C121 and C73 side by side.
- **C176 Members and admins of a group.** the merges of C89 folded over histories; an invariant that turns the remembered dates into a condition on the events received before.
- **C177 One spelling for the address of a mint.** the query codec of net/url byte by byte with its inverse; uniqueness of the sorted arrangement; the parser as a parameter.
- **C178 A wallet loaded from relays sees what its devices published, and only that.** The two filters and the drafts of the published events are modelled; matching is C06, the loader is C94, the history is C171; the theorems compose them. Refuted for deletions without a k tag..
- **C179 A System has what it was configured with.** Record of the configurable fields, one constructor per modifier, fold; a general lemma on folds of setters; rotations from C80; refuted for a store given twice, empty lists and for the event store and hints on Close..
- **C180 What is published arrives.** Composition of C165 (signing over secp256k1), C23 (texts), C07 (matching) and C151 (the reader of the connection) around a small specification of a relay; refuted for texts that are not UTF-8 through C165_signature_binds_fields and the proof that what a reader gets is always UTF-8..
- **C181 Authenticating over a connection.** Composition of C165 (signing over secp256k1), C23 (texts), C69 (validation) and C151 (the reader); that a challenge can never be taken for a subscription id by the pre-parser is proved from the escaping of quotes; refuted for challenges that are not UTF-8..
- **C182 A sync leaves both stores with everything.** Composition of C48 (the vectors), C50 (the session), C106 (the channels) and C107 (the batches) into a statement about the two stores; partial for the defects those found..
- **C183 Whatever a mint answers, a payment is right or refused.** The mint is an arbitrary function; exactly when a swap crashes is characterised, success is proved for the answers that are what was asked for, and both parts are refuted for others (signatures missing or too many, signatures for less, no keyset)..
- **C184 The relays an event was seen on are remembered.** The FetchMany machine is run together with the two middlewares; an invariant says who sent and who took each message under way; the reports of a run are then fed to the theorem about the store (C72). Two concrete runs refute the rest..
- **C185 A wallet does not block.** Each operation is its sequence of lock operations; an invariant relates what a goroutine has left to do to what it holds. A state in which nobody can go on is shown to contain a cycle of two, which needs the two kinds of operation; conversely a schedule that blocks is constructed from any such pair..
- **C186 Deletions that arrive during a payment do not disturb it.** Removing a token moves the last one into the gap; induction shows that what is left is a permutation of the undeleted tokens in which every undeleted token within range is where it was. From that the outcome of the bookkeeping by positions follows exactly. Two concrete runs refute the rest..
- **C187 A live subscription over several relays hands each event over once, and asks every relay for what the caller wanted.** A machine with a clock, the shared table, the workers' queues and their half-done sweeps. The invariant: while the copies of an id come at most a minute apart, its entry holds the time of the last copy or that copy is more than a minute old already. Counting shows that handed over, waiting and lost messages are the accepted ones. Three concrete runs refute the rest..
- **C188 What a remote-signing client sends is encrypted for its signer, and only its signer can answer.** The client of C169 on the curve of C162, with the value the key has after an error. The round trip of NIP-44 (C56) for the zero key gives the refutations; the agreement of C162 the positive part. That nobody else can read a message is an assumption about the primitives and is not expressed..

## Trusted base

### What checks the proofs

- Lean 4.33.0's kernel. Mathlib is used as a library of proofs; the kernel checks it too.
- The axioms `propext`, `Classical.choice` and `Quot.sound` at most. `AXIOMS.md` lists, for every theorem of the manifest, the axioms it depends on (output of `#print axioms`).
- No axiom is added, nothing is left with `sorry` or `admit`, and `native_decide` and `bv_decide` are not used. `decide +kernel` makes the kernel evaluate a closed term; it is used for
  finite facts about bytes, for concrete runs (counterexamples and non-vacuity), and for the arithmetic of the curve (primality certificates, one addition chain).

### What has to be believed

- That the definitions say what the Go code does. Each cites the file and lines it models and names its simplifications. The code is not run here, so nothing but reading connects the two.
- That the statements say what the English properties say. They are written over the model's entry points and separate specifications (`Spec.lean`, or a section "Specification" of the file).
- The semantics of Go as far as used: bounds checks and nil dereferences panic; `append` may share memory (modelled in `Json/SonicMemory`); channels, `select`, mutexes, wait groups and atomics as in the
  Go memory model with sequentially consistent steps, one step per channel operation, lock or atomic. Data races are outside the model, except where a file says that it models one.
- The hypotheses about what is external. They are parameters of definitions or hypotheses of theorems, never axioms, and are listed next.

### What is modelled, by module, and what is left as a parameter

| Modules | Code | Parameters and simplifications |
|---|---|---|
| `Base` | Go strings, slices, indices, `strconv`, `encoding/hex`, base64 | `encoding/base64` from its documentation |
| `Event`, `Event/Libsecp` | event.go, signature.go, signature_libsecp256k1.go, keys.go, helpers.go | SHA-256 is any function to 32 bytes; the signature library is a parameter with the contract `Schnorr.Correct`, which `Curve/Bip340` proves for BIP-340; the C library with the contract `Same` |
| `Curve` | nip44 and nip04 key agreement, keys.go, signatures, ecash (nip60/helpers.go, receive.go), remote signing (nip46) as a whole, keys from seed words (nip06), over secp256k1 | the group law is Mathlib's; how btcec parses, decompresses, multiplies and serializes is from its documentation; nonce, tagged hash, HKDF, HMAC-SHA512, PBKDF2 and the word list are parameters; go-bip39 and go-bip32 from their published sources |
| `Filter`, `Filter/Heap`, `Tags`, `Helpers` | filter.go, tags.go, utils.go, normalize.go, pointers.go helpers, merging of sorted slices | `url.Parse` and `fasturl` are parameters with a read-back contract |
| `Json` | event and filter (de)serializers, envelopes.go, envelopes_sonic.go, the pre-parser | easyjson's lexer and writer, gjson paths and json-iterator are modelled from their documentation; sonic's tokenizer is trusted: the visitor is modelled over its tokens; `json.Valid` and the reading of a count are parameters |
| `Relay` | relay.go, subscription.go, connection.go, publish, count, query, close | one machine step per channel operation; the websocket library and the network are nondeterministic; the consumer of `QueryEvents` always receives; matching, verification and handlers are parameters in `Reader`; the two steps of unsubscribing are merged in `Count` |
| `Pool` | pool.go: many-relay subscriptions, fetches, publishing, batches, pagination | relays are nondeterministic; inner closers merged with forwarders in `Batched` |
| `Misc` | pointers.go, nip42, nip59, nip13, nip10, nip22, eventstore wrappers for several stores | `slices.SortFunc` by its contract; `errors.Join` abstract; leading zeros of a hash as a function |
| `Negentropy` | nip77 and negentropy: accumulators, vectors, wire format, reconciliation, session, ids only | SHA-256 any function; map order of reported ids left open; writes to the relay left out where their answers are not waited for |
| `Nip04`, `Nip44`, `Nip49`, `Nip19` | the packages of these names | AES, ChaCha20, HMAC, HKDF, scrypt, XChaCha20-Poly1305 are parameters, with the inverse law as hypothesis where needed; bech32 is modelled |
| `HLL` | nip45 registers, merging, offsets, the estimate | floating point numbers are real numbers: rounding is not modelled |
| `Nip60` | wallet, tokens, paying, receiving, nutzaps, verification of DLEQ | mints, keysets, the Lightning network, gonuts, signers and error texts are parameters; the group is any module over a commutative ring in `Verify`; JSON of proofs a parameter in `Nutzap` |
| `Nips` | nip05, nip17, nip27, nip29, nip34, nip46, nip51-style codecs, nip53, nip54, nip70, nip86, nip92, nip94, nip96, nipB0, blossom, keyers, bunker and signers | HTTP, servers, multipart encoding, file system, clocks, random numbers, Unicode tables, git diff, `net.ParseIP`, float to integer, JSON and encryption of bunker messages; regular expressions written out as functions and proved equal to the language (nip05) or to a declarative definition (nip27) |
| `Sdk` | sdk: dataloader, hints and their stores, outbox, feeds, lists, profiles, input, search, web of trust, key-value stores | Badger, LMDB and SQL as transactional ordered maps from their documentation; ristretto's cache as slots; the xor filter and the fetching of follow lists in `WotLoad`; the forgetting of seen ids and the wrap of 32-bit counters in `LiveFeed`; `AddDate` and the nip05 server in `Search` |

### What is not modelled

- `String`, `Label`, option constructors and other one-line accessors; logging; the JavaScript build's websocket options; `example/`.
- nip23's Markdown renderer and `nip60/client` below its requests except how answers are read (C183).
- Performance, memory use, garbage collection and timing beyond the order of events.
