# Formal model of keyhive in Lean 4 — design

## 1. What is here

* `properties.jsonl` — the properties, in terms of the public API and observable effects.
* `lean/Verif/*.lean` — the model (one module per part of the code base), helper lemmas,
  and the property theorems.
* `MANIFEST.json` — property → theorem names and status.
* `seeded/LOG.jsonl` — wrong programs the theorems were tested against. `failed` has the theorems that no
  longer check, be it that their own proof fails or that of a lemma they rest on. The latter shows only that
  the proof depends on what was edited. Edits that leave every theorem standing have a `note`.

Module convention. For a component `X`:

* `Verif/X/Model.lean` (or `X.lean` for small ones): executable definitions only, each with a
  comment citing file and lines in `/repo` and naming every simplification;
* `Verif/X/Spec.lean` where a separate specification is useful;
* `Verif/X/Lemmas.lean`: helper lemmas;
* `Verif/X/Props.lean`: the property theorems, with non-vacuity `example`s next to them.

## 2. Modelling conventions

* `&mut self` functions return the new state. `Result` stays `Except`/`Option`; a panic path
  (`expect`, slice index, `unreachable!`) is an explicit error value, never a default.
* `u32`/`usize` are `Nat` except where a property is about a bit width (`clamp`,
  `pseudorandom_in_range` use 64-bit arithmetic). Overflow at 2^32 tree nodes is not modelled.
* Hash functions are parameters or, in symbolic models, an operation is identified with its
  digest; the assumption is collision freedom. It is stated in each theorem that needs it as a
  hypothesis (injectivity of the digest function) or by using the operation itself as its key.
* Signatures: a `Signed` value carries issuer, payload and a signature; `valid` is a decidable
  predicate parameter. Unforgeability is not assumed anywhere unless a theorem says so.
* Symmetric and Diffie–Hellman cryptography is symbolic (perfect): ciphertexts open exactly under
  the key they were made with. Secrecy theorems quantify over a derivation closure.
* `HashMap`/`HashSet` iteration order is an explicit list; theorems hold for every order, or the
  dependence on order is itself the subject.
* Async functions are modelled as atomic (locks are held for each modelled step), except that
  ingestions may take turns event by event (`Keyhive/Overlap`), a device may change while it is saved
  (`Keyhive/Save`), receiving a delegation may be interrupted half-way (`Keyhive/Race`), some calls may be given up
  (`Prekey/GivenUp`, `Keyhive/GivenUp`), and for deadlocks calls are the locks they take and free (`Keyhive/Locks`);
  other interleavings, I/O, serialisation formats (bincode), wasm bindings and logging are
  not modelled.

## 3. Trusted base

* Lean 4.33.0's kernel. Axioms: at most `propext`, `Classical.choice`, `Quot.sound`.
* The reading of the Rust code recorded in the comments. The code is never executed here.
* The symbolic-cryptography and collision-freedom idealisations above.

## 4. Plan per property

| id | modelled | how proved |
|----|----------|-----------|
| C01–C03 | `treemath.rs` bit arithmetic on `Nat` | closed form `x = 2^k·(2m+1) − 1`, induction on height |
| C04, C05, C10 | `tree.rs` state machine | invariant by induction over operation list; refinement to a set |
| C06–C08, C58 | `tree.rs` path encryption over symbolic crypto | induction along the direct path; secrecy via a derivation-closed set that excludes the secret |
| C06 with concurrent updates | replicas of the tree with updates delivered in any causal order (`BeeKem/NetSpec.lean`) | invariant: a node holds one key for each update through it that no other update through it has seen |
| C09 | `keys.rs`, `secret_store.rs` | multiset algebra |
| C11–C16, C19 | `operation.rs`, `cgka.rs` graph | invariant over causal histories; permutation invariance |
| C17, C18 | `cgka.rs` key cache, `pcs_key.rs` | monotonicity; injective symbolic KDF |
| C20, C35, C53, C54 | `keyhive.rs` receive functions | decision logic; refuted properties get a concrete witness |
| C21–C31, C34 | `group.rs`, `state.rs`, `membership_operation.rs` | invariants over histories; topological sort correctness |
| C32, C33, C59 | `transitive_members`, `individual_ids` | worklist invariant vs. inductive reachability |
| C36, C37 | ingestion loop | well-founded recursion; fixpoint; confluence under monotone receive |
| C79, C37 (members) | stores, groups, ingestion | what two devices hold differs only in the kinds given to agents; replay commutes with changing kinds; invariant: stores and groups hold the same operations |
| C38, C76–C78 | `into_archive`, `try_from_archive`, `ingest_archive` | round trip over the topological order of the stores; simulation between the saved and the loaded device; frame lemmas |
| C39, C56, C75 | `membership_ops_for_agent`, `cgka_ops_reachable_by_agent`, `reachable_prekey_ops_for_agent` and the bulk versions | the walk finds exactly what is reachable from its heads (potential argument for termination); fold invariants for the bulk results |
| C40–C44, C57, C68, C69 | prekey state, selection, registry of individuals | set algebra; 64-bit arithmetic |
| C45, C46, C51, C70 | stores, causal decryption | index invariant / refinement; worklist invariant |
| C47–C50, C55, C60 | small pure parts | direct |
| C64–C67 | `group.rs`, `state.rs` failure points, locks, heads | invariants over runs; witnesses by kernel evaluation |
| C58 with concurrency | `Trusted` replicas; every operation uses only keys it brings or that operations in its causal past brought | secrets flow forward along the causal order only: induction over the derivation; C07, C08, C58 and C90 for whole devices: `Keyhive/HeldSpec.lean`, `HeldProps.lean` — the secrets of every document's replica come from the device's own pairs and draws, by induction over its calls |
| C71, C72 | `apply_epochs` batches and the repair of the tree | invariant of the pop/push loops; witness by kernel evaluation |
| C73 | `derive_pcs_key_for_op` | the past of an operation sorts the same way in every graph that contains it |
| C52, C74 | `document.rs`, `keyhive.rs` `add_member`, `revoke_member`; `cgka.rs` `add`, `remove` | effect of each call on the ids of the tree; frame lemmas for the loops over documents |
| C61–C63 | `cgka.rs` calls and their failure points | frame lemmas; witnesses by kernel evaluation |
| C80 | `Trusted` replicas: own calls and deliveries of what another such replica recorded | keys and trees stay truthful; every operation has a witness replica whose last operation it is; without concurrency the witness's tree is good; trees agree by C12; old secrets by C73. With concurrent updates (`TogetherProps`): since the last change of membership the operations are updates by different members; applied in the order of the replay they give a tree in which every node's versions are opened by the members below (`BeeKem.Net`), and any two replays agree. Between whole devices (`FleetProps`): on devices that all run the library every document's key tree is a `Trusted` replica, whatever else they receive |
| C81, C82, C84 | `events_for_agent`; every call of a device, with a relation that a document only moves on; invitations | frame lemmas for every call: the document's key tree is a later state of the same tree; then C13, C73 and C14 for the tree |
| C83, C85 | all calls of a device, with the ids of individuals as a parameter | invariant: ids of individuals are free, stored delegations are about known groups |
| C15, C86 | calls of trusted replicas, with divergence as an outcome | witness of the loop; success of replays when removals are not concurrent with anything: such a history is a chain of removals with flat stretches of additions and updates between them; invariant of the tree along the replay order |
| C87 | `keyhive.rs` `add_member`, `revoke_member`, `force_pcs_update`, `try_encrypt_content` | the operations recorded before and after each step of the loops over documents; composition |
| C88 | calls of trusted replicas without concurrent removals | the invariant of C86 makes every step of the path encryption succeed |
| C89 | `reachable_prekey_ops_for_agent`, `topsort_keys` | fold over the sources; the sort loses nothing when each replaced key is known and there is no cycle |
| C90 | all calls of the group-key replica, receiving anything | invariant over all histories: stored secrets are derivable (Dolev–Yao) from the device's own and the recorded ciphertexts, tree nodes hold only recorded ciphertexts |
| C91 | all calls, the content that founding delegations name | invariant over all histories: what is recorded under the id of a founded group or document has its kind and its heads |
| C92 | `add_member`, `revoke_member` with the content they compute (`Keyhive/Api`) | the new operations and their content, through every helper; reachable documents by C59 |
| C93 | `transact_async`, `fork_async`, `merge_async` of a device and what every call reports to the log (`Keyhive/Transact`) | the fork is a twin of the device (C38, C76); each call's log covers what it stores; replaying the log stores it |
| C94 | `stats` (`Keyhive/Stats`) | each loop counts a list without repetition of exactly the things held (`Numbers`); the maps only grow through every call |
| C95 | `get_membership_operation`, `static_event_to_event` (`Keyhive/Stats`) | the stores hold verified operations under their digests (`reach_storeOk`); conversion is inverse to `Env.sdlg`/`Env.srev` |
| C96 | `try_decrypt_content` on a device (`Keyhive/Content`) | case analysis of where the secret is found; stored secrets are under their hash (`Coh`) on every reachable key tree |
| C97 | `static_events_for_agent` with its keys, `pending_event_hashes`, the tables of the JavaScript interface (`Keyhive/Tables`) | every entry is under the name of its event, by induction over the walk that collects it; byte layout of what is hashed |
| C98 | `allAgentEvents`, `eventsForAgent`, `eventHashesForAgent` (`Keyhive/Tables`) | names are injective, so later sources overwrite nothing; then agreement of the selections (C56) |
| C99 | `accessForDoc`, `bestAccessForDoc`, `docMemberCapabilities` (`Keyhive/Access`) | from exactness of transitive members (C33) on reachable devices; case analysis for the best of two |
| C100 | `revokedMembersForDoc`, `revoked_members` (`Keyhive/Access`, `Group/Model`) | invariant of the loop over the revocations in effect |
| C101 | `export_prekey_secrets`, `import_prekey_secrets` (`Keyhive/Secrets`) | invariance of the pairs and the own id under receiving; the specification of ingestion (C36); shape of reachable trees for the merge |
| C102 | `register_peer`, `register_individual`, `register_group`, `get_peer`, `GroupState::new` (`Keyhive/Register`) | case analysis; induction over the worklist of `GroupState::new`, whose weight bounds its rounds |
| C103 | `Event::now_decryptable` over an arbitrary store, over the in-memory store and over the browser's (`Cipher/Web`) | induction over the events; then the lookups of C45 |
| C104 | the browser's half of `ciphertext_store.rs` (`Cipher/Web`) | the storage as a map from names to texts; causal decryption from C46, which holds for any store that answers reliably |
| C105 | `ingestEventsBytes` (`Keyhive/Bytes`) | encoding and decoding as parameters; induction over the table of bytes; the specification of ingestion (C36) |
| C106 | `bytes_to_hex_string`, `idString`, `Hash::short_hex` (`Crypto/Signed`) | reading the digits back; lengths of the parts of the short form |
| C107 | `Signed`: equality, hashing, order, `digest` with its cache, `new`, `map`, `clone` (`Crypto/Signed`) | invariant that a kept digest is the right one; lexicographic order |
| C108 | `generate_doc` and `generate_group` with others as peers, `Peer`, `register_peer` (`Keyhive/Coparents`, `Group/FoundLemmas`) | frame lemmas on the registry; induction over the list of others; witness for groups |
| C109 | `DebugEventTable`, `DebugEventRow`, `Nicknames`, `Hash` (`Keyhive/Debug`) | induction over the events; the grounds of accepted revocations (C24); witness |
| C110 | the bytes that are signed, for each kind of payload, and `trySign` (`Crypto/Wire`) | every encoder can be read back (cancellation law, composed field by field); lengths and first bytes tell the kinds apart; witness for messages |
| C111 | `withPublic` (`Keyhive/Model`) in every place where a document's key tree is made or handed over; `pcsKeyFromTreeRoot`, `decryptContent` | the public secret is an invariant of every document's key map (each call keeps it); whoever holds the key of the public leaf gets at the root of the writer's tree; then the argument of C80 |
| C112 | what every call reports (`Call.log`, `Keyhive/Transact`) | case analysis of every call, induction over the passes of an ingestion |
| C113 | devices of a fleet that alone sign for their agent (`Keyhive/PlaceSpec`) | the secrets of places the agent was given are an invariant of the key map; every key on a leaf comes from an operation for its member (`leaf_from`); then C80 |
| C114 | the same devices; for whom a replica acts (`ownerId`) | if an invitation of the agent is on record the replica acts for the agent or the public individual (`Owned`, an invariant); an update names whom the replica acts for, or the public individual, and fails when neither is in the tree |
| C115 | `receive` of a device; what can be seen of it (`Keyhive/RefuseSpec`) | cases of `receive` and of what it calls: where an error is returned, what was done before it |
| C116 | `makeCard`, `existingCard` (`Prekey/Card`), the registry of the receiver; the owner's steps (`Prekey/CardSpec`) | invariant: every key in the published operations has its secret on the device, no own rotation leads to itself; one prekey is always picked |
| C117 | `is_missing_dependency` (`Keyhive/WaitSpec`), `receive` of a device | cases of `receive`; for key operations, that no function of the tree, the sort or the replay returns one of the errors meaning "not yet" (`Cgka/Errors`) |
| C118 | `try_pcs_key_hash` (`Keyhive/KeyHash`), devices that run the library | convergence of trees (C12) and `Clean` trees for agreement, C80 for an answer, settled trees (C16) for none, cases of writing |
| C119 | which revocations `rebuild` honours (`Group/CountProps`, on the replay of `Group/Model`) | the state of the replay when the turn of a revocation comes: what stands is in play, revocations in effect stay in effect; a witness for a removed member |
| C120 | `cgka_ops_for_doc` (`Keyhive/TakeSpec.lean`) on top of the topological sort of `Cgka/Graph.lean` and `receive_cgka_op` of `Keyhive/Model.lean`; two devices of a `Fleet` | the list from C14 and C13; taking it in by induction over the list: each step is C86 at the tree, lifted through the three ways an operation is merged (plain, own invitation, public invitation) |
| C121 | `Document::revoke_member` (`Keyhive/Local.lean`), `Cgka::remove` and `new_app_secret_for` (`Cgka/Model.lean`), and three devices of a `Fleet`: one that revokes, one that writes, one that tries to read | `removeCgkaMembers_makes`: by induction over the individuals taken out, each gets a removal that comes after everything known; its position then carries over to any device that has the operation, and C07 between devices gives that the key cannot be derived. For the next write of the same device: its update is of a member of the tree, hence of nobody removed |
| C122 | `Document::add_member` (`Keyhive/Local.lean`), `Cgka::add`, `has_pcs_key` and `new_app_secret_for` (`Cgka/Model.lean`), and two devices of a `Fleet`, one of them the only device of its agent | `addCgkaMembers_makes`: by induction over the individuals added, each gets an addition that comes after everything known. So no update comes last, the group secret is not current (C16), the write makes an update, and C113 gives that the newcomer reads |
| C123 | `Keyhive::add_member` and `revoke_member` for groups with the loops over the documents the group is behind (`Keyhive/Local.lean`), `Cgka::add`, `remove` (`Cgka/Model.lean`), and devices of a `Fleet` | `Cuts` and `Lets` say what a call did to one key group, and compose; each step of the loops over documents and over individuals is one (`revokeFromGroup_cuts`, `addMemberToGroup_lets`, for every document at once). The rest as for C121 and C122 |
| C124 | the calls of C121 and C123, with who is behind a member and among the members of a document (`Group/Model.lean`, `Keyhive/Spec.lean`) | that those left without access are out of the key group: for documents C52; for groups `drop_gone`, `propagateRemoves_gone`: by induction over the individuals and the documents each removal succeeds (the tree is well-formed, C14, C16) unless one is alone in the key group. Then C121 and C123 |
| C125 | the calls of C122 and C123, with who is behind a member and among the members of a document (`Group/Model.lean`, `Keyhive/Spec.lean`) | C52 gives that exactly those behind the new member are put in the key group; C122 and C123 that the next write renews the key and that they can read it |
| C126 | `try_encrypt_content`, `force_pcs_update` on devices (`Keyhive/Content.lean`), `new_app_secret_for`, `update` (`Cgka/Model.lean`) | C88 lifted to devices: after replay the tree is one every member can open (`joins_replay`) and has the same members, so an update succeeds; if the group has a current secret the member holds the secret of its place (C113), so it derives it |
| C127 | `ingest_unsorted_static_events` with `receive_cgka_op` (`Keyhive/Model.lean`) | a pass puts off exactly what lacks something of its past; the first missing operation in causal order (C120) would be taken in the last pass (`take_step`), so none is missing; induction over passes and rounds with what receiving any other event leaves unchanged (`Tracked`, `receive_from`, `receive_docs`); reading by C113 |
| C128 | `get_agent_revocations` (`Keyhive/Asked.lean`) | everything in the history of a group is in the store of the device (`reach_stocked`), which is keyed by digest (`reach_storeOk`); filter |
| C129 | `add_multiple` (`Cgka/Many.lean`) | induction over the list with what one `add` records (`add_records`) and `Current.add` (C74) |
| C130 | `try_encrypt_content_keyed`, `try_decrypt_content_keyed` (`Keyhive/Keyed.lean`, `Keyhive/Content.lean`) | the secret made is the one derived from a group secret, the reference and the predecessors (`newAppSecret_is`); a reader that succeeds has opened the ciphertext, so has the sealing key |
| C131 | `tryEncryptArchive` (`Keyhive/Keyed.lean`) | unfolding; the secret used is the current one if there is one |
| C132 | `generateGroup`, `generateDoc`, `addMemberToDoc`, `addMemberToGroup`, `encryptContent`, `forcePcsUpdate` when they return an error; case analysis of each call, with C87 for the group-key operations |
| C133 | `receive` on what is on record (`Keyhive/AgainProps`) | the stores only grow (induction over calls), so the early return is taken; for key operations the graph has the operation (C82) and its past (C11); for prekeys inserting twice is inserting once |
| C134 | `encryptContent`, `decryptContent`, `forcePcsUpdate` and the members of a document | the calls give the same with any other members in place; two devices of the fleet on which a reader writes |
| C135 | `transitiveMembers`, `individualIds` and `Path`, `Walk` | paths from one group continue those from the other; induction on the path |
| C136 | `addMember`, `revokeMember` and the revocation heads | what a new delegation names is read off the heads; the rest by the rules of rebuilding (C20) |
| C137 | `addMember`, `proofFor`, `findProof`, `checkChain` and `Backed` | a chain through individuals stays valid whatever the other groups look like; then C21 |
| C138 | `distance`, `reverseTopsort`, `honours` | distances grow along the causal order; for two who revoke each other C119 and C25 |
| C139 | `Ingestion.start/step`, `Busy.run` (calls of `ingest_unsorted_static_events` that take turns) | a call alone refines `ingest`; invariant over schedules; witness by evaluation |
| C140 | `receiveDelegation`, `rebuild`, `addMember`; on the device `Keyhive.receive` | heads are about the group, and so is everything they name, by induction over the history; witness by evaluation |
| C141 | `saveAcross` (`into_archive` with each part read in a state of its own), `tryFromArchive` | completeness of the topological order; C38; witnesses by evaluation |
| C142 | `halfway`, `adopt` (the two halves of `receive_delegation` for an unknown subject) | the halves together are `receive`; frame lemmas for `adopt`; witness by evaluation |
| C143 | `rotateUpTo`, `expandUpTo`, `privateUpTo` (the calls of `active.rs` cut between their sections with a lock) | invariant over calls given up anywhere; witness by evaluation |
| C144 | `revokeFromGroupUpTo` (`revoke_member` on a group cut between two documents) | frame lemmas for the loop over the documents; witness by evaluation |
| C145 | `addMemberToGroupUpTo` (`add_member` on a group cut between two documents) | the loop over the documents as for C52, from the state left by the first call |
| C146 | the turns of C139, of one call that gets no more of them | the call has only received events as long as it has not returned; C36 from there |
| C147 | `Keyhive/Locks`: each call as the locks it takes and frees; an executor that polls the calls in any order | every call takes only locks that rank above those it holds, so whoever waits for the highest lock waits for somebody who can go on; alone, a call that walks through members only with other locks held takes no lock it holds |

Nothing in the list is outside what an executable model can express; where only the logical part
can be carried (async interleavings, serialisation) the theorem is labelled partial.

## 5. Findings

Properties the code violates. Each has a theorem proving the negation on a concrete witness, and a `_partial` theorem for
the part that holds.

* **C04** — `apply_path` trusts the positions in a received path change: a hostile one makes the code index outside the tree
  (`C04_fails_for_hostile_paths`).
* **C06** — two concurrent updates by the same member leave a conflict on its leaf, and the next update by anyone else panics in
  `encrypt_path` (`C06_fails_for_conflicting_leaf`). Concurrent updates by different members do no harm, in whatever causal order they
  arrive (`C06_concurrent_update_partial`, `C06_concurrent_secret`, `C06_concurrent_agree`), although the trees of replicas then differ
  in the order of conflicting keys: `SecretStore::merge` appends without sorting.
* **C07, C08** — with concurrent operations a merged tree can put a member at another position than the one its adder had put it at. A node
  key that was sealed to it at the old position stays in the tree: after the member is removed, or has replaced its leaf secret, the
  next group secret is sealed to a key its old leaf secret opens (`C07_fails_with_concurrent_operations`,
  `C08_fails_with_concurrent_operations`; every replica runs the library). For writers in whose history members were added and removed
  while nobody did anything else, and nobody updated twice at the same time, both hold on devices, whatever others do concurrently (`C07_removed_device_cannot_read_partial`, `C08_stolen_keys_cannot_read_partial`). **C58** holds with any concurrency.
* **C80** — in the situation of **C72**, a listed member cannot read what others write; its device panics
  (`C80_fails_with_concurrent_operations`).
* **C10** — two members concurrently adding the same identity leave a ghost leaf: removing the identity removes one leaf, and the
  removed member still derives the next root secret (`C10_fails_for_concurrent_adds`).
* **C14** — an operation without predecessors is accepted from the network; if nothing builds on it, it is left out of the replay
  order (`C14_fails_for_two_roots`).
* **C15** — two members concurrently removing the same third member: replay fails with `IdentifierNotFound` for good, so the group
  accepts no further update, removal or operation on top of both (`C15_fails_for_concurrent_removes`).
* **C86** — one member removes the member at the last leaf while another adds a member, and the added member updates. On a replay
  the removal comes first, the added member lands at a smaller leaf, and its update names a leaf outside the tree. `is_valid_path`
  computes `path_length_for` of that leaf before it compares the indices (tree.rs:569-576), and `treemath::direct_path` climbs
  past the root for ever, pushing onto a vector. Every replica that holds these operations hangs (or runs out of memory) on its
  next addition, removal, update or merge on top of both, although all devices run the library
  (`C86_fails_concurrent_add_remove`). As long as no removal is concurrent with anything, replays succeed and every call returns, except for
  the panic of **C06** (`C15_no_concurrent_removal_partial`, `C86_returns_partial`, `C86_delivery_partial`).
* **C19** — `CgkaOperationGraph::merge` unites the heads and the add heads of both sides, so that operations that have successors
  stay heads, and the group never reports a current secret although its only real head is an update (`C19_heads_wrong`).
* **C55** — `pop_earliest` pops the newest event and `pop_latest` the oldest (`C55_names_swapped`).
* **C60** — `trailing_zeros` counts wrongly and can overflow (`C60_trailing_zeros_wrong`, `C60_trailing_zeros_overflow`).
* **C61** — `add`, `remove` and `update` change the tree before they sign; if signing fails, the tree stays changed without an
  operation, and content is then encrypted with a secret nobody else can derive (`C61_failed_signature_diverges`).
* **C62** — after C19, the library's own next operation names redundant predecessors; applying it and replaying it give different
  trees, and members can no longer derive the secret of that update from the operations, which also refutes **C73**
  (`C62_fails_after_fork_merge`).
* **C63** — `decryption_key_for` records the update operation named by unauthenticated content; later honest content by the same
  member then names the wrong operation (`C63_fails_after_forged_content`).
* **C21** — `receive_revocation` does not check the delegation being revoked, but replay then processes it with everything above it
  as if it had been received: a stranger signs a delegation from an admin's to itself, one below it, and revokes the latter with the
  admin's delegation as proof; the stranger becomes admin (`C21_fails`).
* **C24** — a revocation whose proof is the revoked delegation (or one above it) is accepted whoever signed it: a stranger can remove
  the only admin (`C24_fails`). The proof also may be about another group: with a team made for the purpose as proof, a stranger removes
  the only admin of a group that has nothing to do with it (`C24_foreign_fails`).
* **C25, C27, C30** — when one delegation is revoked by two revocations, only one of them is ordered before the delegations that
  depend on it. Which one depends on the order of the heads, so a delegation can survive its own revocation (`C25_fails`), replicas
  with the same operations disagree about the members (`C27_fails`), and a member added on top is silently not a member (`C30_fails`).
* **C26** — delegations below a revoked one stay as long as the *issuer of the revoked one* still has that access: revoking Bob leaves
  everyone Bob added (`C26_fails`), and Bob can add themself back with their revoked delegation (**C65**, `C65_fails`).
* **C28** — a member of a nested group who revokes the delegation above the nested group's creates a circular requirement; the
  topological sort then drops every operation and the group has no members (`C28_fails`).
* **C31** — an admin cannot revoke a member it did not add (`C31_fails`): the "double up" loop compares the wrong ids. **C66** — when
  the call fails half-way, the revocations issued so far stay (`C66_fails`).
* **C32** — access is capped by the last but one link only, so an agent two groups below a read-only link is reported as admin
  (`C32_fails`).
* **C34** — redelivering an old delegation can make it a head again (`C34_fails`).
* **C64** — with two groups that contain each other, receiving a delegation issued on behalf of the nested one locks a group that is
  already locked (`C64_fails`).
* **C67** — ancestors are recognised by payload, not by signature: when two keys signed the same payload, an accepted delegation can
  be dropped from the heads and is not held at all (`C67_fails`).
* **C41** — the first prekey operation about an agent is not verified: a forged contact card is accepted, a forged event is reported as
  an error but the individual stays registered, and a group or document whose prekeys are unknown takes a forged event with success
  (`C41_fails`).
* **C42** — `pseudorandom_in_range` can return the number of prekeys itself, one past the end: an individual who publishes, say, 16
  prekeys makes whoever adds them to a document panic for every second hash value that is not skipped (`C42_fails`, `C42_panic_iff`).
  The choice also follows the iteration order of a `HashSet`, so with two or more active prekeys two copies of the same individual
  choose different prekeys for the same document (`C42_order_fails`, `C42_deterministic_iff`).
* **C43** — an individual can sign rotations 1→2 and 2→1: no prekey is left, and choosing one panics (`C43_fails`).
* **C44** — with the same two rotations `KeyOp::topsort` never returns, which hangs sync for everyone who reaches that individual; an
  individual known from a contact card has nothing to send (`C44_fails`).
* **C57** — the public individual's signing key is public, so anybody can make a contact card that rotates its prekey (`C57_fails`).
* **C68** — `clamp` shifts out the wrong bits on little-endian machines: with 2 to 15 prekeys index 0 is the only one ever produced
  (`C68_fails`). Every prekey can be chosen only if their number is a power of 256 (`C68_all_iff`).
* **C69** — a device takes in prekeys published by another device of the same agent without their secrets (`C69_fails`).
* **C45** — `remove` drops the content reference from the update's index although other ciphertexts still need it: those are then not
  found by update, and removing one of them next returns `None` half-way and leaves a dangling digest that makes every later lookup
  of that reference return nothing. `get_by_pcs_update` also returns ciphertexts of other updates (`C45_fails`).
* **C46** — `try_causal_decrypt_content` skips direct ancestors that are not in the store, although `next` is meant to report them; an
  error of the store inside the ancestor loop un-marks the content as seen, so that a self-referencing envelope makes the worklist
  run for ever; keys that failed to decrypt are among the reported keys (`C46_fails`).
* **C70** — only the longest ciphertext of a content reference is tried, so a longer junk ciphertext hides the genuine one
  (`C70_fails`).
* **C72** — one member removes the member at the last position while another adds somebody: on replay the new member is put at the
  freed position, and the repair after the batch blanks that position because of the removal. The new member stays listed but has no
  leaf: no later update reaches it (`C72_fails`).
* **C20** — `receive_cgka_op` checks the signature but not who signed: anybody, even an agent the device has never heard of, can add
  itself to a document's key tree (and remove or replace others) with one signed operation (`C20_fails`).
* **C36** — `receive_revocation` falls through to locking `self.groups` while a guard from the first `if let` is still held: when the
  subject of a stored delegation is not known, the call waits for itself forever. Two events signed by an agent known as an individual
  are enough (`C36_fails`, `C54_unknown_fails`).
* **C37** — whether a delegation is accepted depends on the members of nested groups at that moment. If a member of a nested group adds
  somebody and is then taken out of the nested group, the order in which a batch is iterated (that of a `HashMap`) decides whether the
  addition is applied or stays pending for good (`C37_fails`).
  If nothing is left over in either order, members and access agree (`C37_complete_partial`); but whether a new id becomes a group or a
  document depends on which delegation from its key comes first (`C37_kind_fails`, `C91_fails`).
* **C53** — `promote_individual_to_group` builds the group, but nobody puts it into `groups`: the agent disappears from the device
  (`C53_fails`). **C54** — a revocation about an agent known as an individual is stored but reaches no group (`C54_fails`).
* **C74** — `Cgka::add` and `Cgka::remove` look up membership before they replay what was received. If somebody else's operation adding
  X waits to be replayed, removing X returns successfully, does nothing, and X is a member after the replay: a member revoked this
  way keeps its access to keys (`C74_fails_for_remove`; the mirror case is `C74_fails_for_add`).
* **C52** — only the access of the new membership is looked at, not the access of the path: a group that may only relay a document
  still puts its reading members into the document's key tree (`C52_fails`). Errors while removing individuals after a revocation
  in a nested group are ignored.
* **C75** — when the walk that selects membership operations for an agent meets a delegation to a group it follows the group's delegation
  heads, not its revocation heads. A member of the outer group who is not in the inner one never hears that somebody was
  taken out of the inner group, and goes on treating that agent as a member of both (`C75_fails`).
* **C39** — the prekey operations sent along are those of current members only. Operations that involve an agent that was taken out, and
  operations about a document that is a member of a group, stay pending on a new device, with all that depends on them (`C39_fails`).
* **C56** — the bulk query attaches revocations to the *id* they are about and does not follow groups from them: after a group is revoked its
  members see more in the bulk result than in their own query, and after an individual added through a group is revoked they see
  less (`C56_fails`, and `C98_fails` for the tables built on it).
* **C59** — the access reported to an agent is the one found last on the walk, not the highest: the creator and admin of a document
  is told it may only relay it because it is also in a group that may (`C59_fails`).
* **C38** — the list of revocations in effect is not in the archive: a loaded group reports nobody as taken out until it is next rebuilt.
  An archive cannot be loaded at all once an individual with access has been "promoted" (**C53**: the agent is then known as nothing),
  or once the operations in the stores depend on each other in a circle (the topological sort drops them) (`C38_fails`).
* **C76** — a device that received a delegation signed by its own key as that of a group has taken itself out of the list of individuals;
  loading puts it back, and the next such delegation makes a group on the saved device and none on the loaded one (`C76_fails`).
* **C77** — `ingest_archive` looks at neither documents nor pending events: a second device that takes in an archive knows the
  document but has no key tree for it. It never compares the agent of the archive with its own, and merges the prekeys of whoever it
  is into the device's own individual (`C77_fails`).
* **C78** — `try_from_archive` verifies no signatures (`C78_fails`); `ingest_archive` does.
* **C79** — a root delegation signed by an id that the device knows as an individual is stored, but the group is created and then
  thrown away; a device that does not know the id creates the group (`C79_fails`).
* **C81** — an operation without predecessors that is not the first one (**C14**) is recorded, but not among the events for any agent
  (`C81_fails`).
* **C82** — a document's key can sign a delegation whose proof is about an agent that the device knows as nothing (**C53**): `adopt` then
  replaces the document by an empty one, without key tree and members (`C82_fails`).
* **C83** — an individual that signs a delegation of itself is "promoted" and then known as nothing (**C53**); whoever uses that delegation
  as proof is then adopted as a group: an honest individual is taken for a group without members, and what is shared with
  it gives it nothing (`C83_fails`).
* **C85** — a prekey event or contact card in the name of a document or group the device does not know yet is registered as an
  individual before its signature is looked at. The genuine first delegation is then taken for a promotion (**C53**), and the document or
  group is never known on this device: anybody who knows the id can do this with one unsigned event (`C85_fails`).
* **C87** — `add_member` on a group adds to the key trees of the group's documents one after the other and stops at the first failure. What
  the earlier documents have recorded by then is not returned and not given to the listener, and repeating the call does not hand it
  out either, because the member is then there (`C87_fails`).
* **C88** — see **C15**, **C86** and **C06**: the rebuild before an update can fail, loop (`C88_fails`), or meet two keys in the own leaf.
* **C89** — `topsort_keys` puts a rotation after the operation that made the key it replaces; a contact card holds one operation only. If that
  is a rotation it is never sorted in, and the prekeys of that individual are sent to nobody (`C89_fails`).
* **C92** — nothing writes `content_state` or, after a document has been made, `content_heads`. So an addition names no content of the document,
  and a revocation names the content that every document was made with, whatever has been written since (`C92_fails`). Asking
  `add_member` on a document to name the heads of that same document blocks for ever: it is locked while its heads are asked for.
* **C112** — a delegation to a known group that is received is not reported to the event listener (`C112_fails`; the call is commented out,
  keyhive.rs:1676), and a received revocation is reported before it is checked, also when it is then refused (`C112_refused_fails`).
* **C93** — a transaction runs on a fork whose listener is a log, and committing receives what the log holds. The secret of a key update is not
  an event: after a transaction with `force_pcs_update` the device can no longer encrypt for the document (`C93_keys_fails`). Receiving a
  delegation of a known group reports nothing (C112): what a transaction receives is lost when it commits (`C93_received_fails`), and
  committing panics if the transaction went on to receive something that refers to it (`C93_commit_fails`). A call that fails half-way records
  group-key operations without reporting them. Events that the fork could not apply yet are not kept either.
* **C94** — `stats` calls the number of prekey operations of the device's own agent `active_prekey_count`: after one rotation it is two while one
  prekey is active. When the key of a known individual signs the first delegation of a group, the number of individuals goes down and no
  number goes up (`C94_fails`; the group is not made, C53).

* **C97** — `static_events_for_agent` (and `eventsForAgent`, `eventHashesForAgent`) key delegations and revocations by the digest of the signed
  operation, cast to the digest of an event; `pending_event_hashes` and ingestion use the digest of the event, which begins with the number
  of the variant. The two never agree (`C97_never`), so a peer that compares them always finds a pending delegation missing (`C97_fails`). Not
  modelled, but seen in the same place: the JavaScript `Map`s have fresh `Uint8Array` objects as keys, which are compared by identity, so
  `map.get(hash)` finds nothing.

* **C99, C100** — The answers to the JavaScript interface inherit the last-write-wins access of `transitive_members` (C32, C59): the creator and admin of a
  document is told `relay` (`C99_fails`). `revokedMembersForDoc` looks at direct members only: someone who is still a member through a group is shown as
  revoked, and someone whose delegation fell with that of another is not shown (`C100_fails`).
* **C101** — `import_prekey_secrets` extends the map of key pairs with whatever the blob holds: a secret that does not belong to its public key is
  taken and takes the place of the right one (`C101_fails`).
* **C102** — `register_group` asks whether a group with the *subject* of the delegation is known, and inserts the new group under its *issuer*. With a
  delegation that the key of a known group signed about another group, the known group is replaced by one in which nobody is a member. It checks no
  signature, so an unsigned delegation gets on record, and it does not ask whether the id is that of a document or an individual;
  `register_individual` does not ask whether it is that of a group (`C102_fails`).
* **C103, C104** — The store kept in a browser ignores the operation it is asked about: it gives every ciphertext it keeps, so `now_decryptable` lists
  under each document the ciphertexts of all documents. It reads every text in the storage, which the page may use for other things: a single text that
  is no ciphertext makes the call fail. A text of that kind under the name of a content reference makes causal decryption loop for ever if an envelope
  names itself and this reference (the visit is undone when a lookup fails) (`C103_fails`, `C104_fails`).
* **C106** — The short form of identifiers in the tables of debug events keeps five of 32 bytes (`C106_fails`).
* **C107** — Equality and hashing of `Signed` look at the issuer and the signature only, while the order looks at the payload too: a copy with another
  payload, which does not verify, is *equal* to the original without being *ordered* as equal, against the contract of `Ord`; and as the digest is kept
  in a field that an assignment to the payload does not reset, it can be out of date (`C107_fails`).
* **C108** — `generate_doc` registers the others it is given, `generate_group` does not, and neither does `add_member`. A device that makes a group with
  somebody it does not know has delegations on record to somebody it does not know, and what it saves cannot be loaded: `try_from_archive` ends with
  the error for an unknown agent (`C108_fails`).
* **C109** — The row of a revocation shows the subject of its *proof*, while the library takes the subject of the *revoked delegation*. As the proof may be
  about another group (C24), the table can name a group that has nothing to do with the revocation (`C109_fails`).
* **C110** — Signatures cover only the serialised payload, without a tag for its kind. Keyhive's own kinds happen to differ in length or in their first
  bytes, but `trySign` signs the application's bytes with the same key: eight bytes of length and the message. A message of 56 bytes thus has the bytes of a
  `RotateKeyOp`, whose new key is the last 32 bytes of the message. Whoever gets a user to sign such a message (a challenge, say) can make every device take
  a key of theirs for a prekey of that user, and then read what is encrypted to it (`C110_fails`). A message of 24 bytes is an `AddKeyOp`.
* **C113** — On the device that creates a document its key tree is owned by the document's own leaf (document.rs:181-195), and the prekey the device puts on
  its agent's leaf is not kept with it. When it receives an addition of the public individual, `receive_cgka_op` makes the agent the owner
  (`reset_cgka_owner`, keyhive.rs:1817-1827). From then on the device reads for a leaf whose secret is not among the document's keys; once the public
  individual is removed, it cannot read what others write, though its agent is a member (`C113_fails`). Writing, which puts a new key on that leaf, repairs
  it for what is written after that.
* **C114** — A device that receives a document's group-key operations without an addition of its own agent builds a replica that acts for the document's own
  leaf: `merge_cgka_op` takes the first addition for the beginning (`new_from_init_add`) and its member, the document, for the owner. Nothing stops
  `force_pcs_update` or `try_encrypt_content` on such a device: they put new keys on the document's leaf, signed by the device's agent, and every other device
  accepts that (C20). Somebody who may only relay the document can then read all that is written afterwards, and the creator, whose device reads for the
  same leaf and does not have the new keys, cannot (`C114_fails`).
* **C115** — For a revocation whose subject is known only as an individual, `receive_revocation` first removes the individual and makes a group of it, which
  is put nowhere (C53), and only then lets that group check the revocation (keyhive.rs:1715-1723). If the check fails the error is returned, and the
  individual is gone: anyone's worthless revocation makes the device forget the agent (`C115_fails`).
* **C116** — `generate_private_prekey` is documented to make a key "that is not broadcast via the prekey state", but its rotation is part of the
  published prekey history, so others use the key until they receive the next rotation. `get_existing_contact_card` takes any operation of the
  history, which can be for a key that was rotated away. A card that rotates a key to itself leaves its receiver with an individual without prekeys,
  and the next invitation panics; making a card panics from 16 prekeys on like any choice of a prekey (C42) (`C116_fails`).
* **C117** — `is_missing_dependency` is false for `UnknownDocument`, `UnknownInvitePrekey` and all `GroupReceiveError`s, so for events that arrive
  before the document's first delegation, before the prekey secrets are imported, or before the author's own membership in a member group, the
  caller is not told to wait, although the same events are accepted later. It is true for `IdentifierNotFound`, which a removal of somebody who is
  not a member gives for ever, and for `NotInitialized`, which the device gives for a tree that begins with its own agent (`C117_fails`).
  `ingest_unsorted_static_events` does not ask it and keeps all these events pending.
* **C118** — `try_pcs_key_hash` looks at the tree as it is and does not work in operations that arrived at the same time as others. When somebody is
  added while somebody else writes, members' devices with the same operations give different answers, and the hash reported is that of a key that
  the next write does not use (`C118_fails`). The query is not among the calls of a reachable device: its only effect is that secrets it finds are kept.
* **C119** — when the delegation a revocation rests on has been revoked, `rebuild` skips the revocation only if the *giver* of that
  delegation is a member and has lost that much access. Since the giver normally still has it, or is the group key, which is not a
  member, the check hardly ever skips anything: Alice removes Bob, and Bob's later revocation of Carol, with their revoked delegation as
  proof, takes effect (`C119_fails`, `C119_given_counts`, `C119_root_counts`).
* **C120** — The key history `cgka_ops_for_doc` returns is not always all of it: a second operation without predecessors, accepted from the
  network, is left out (the fault of C14 at the interface). And a second device of an agent that does not hold the secret of the prekey the
  agent was added with refuses the invitation with `UnknownInvitePrekey`, and then everything after it with `OutOfOrderOperation`, so it can
  never have the document's later key operations, not even to pass them on. Witness: `C120_fails`.
* **C121** — A revocation and the group-key operation made with it travel as separate events, and nothing ties the second to the first. A
  device that has received the revocation no longer lists the person as a member, but `try_encrypt_content` looks at the key group only:
  until the key operation arrives the device goes on writing under keys the revoked person holds, and they read it. Witness: `C121_fails`.
* **C122** — The same gap the other way round: a device that has received the delegation to a newcomer but not the group-key operation made
  with it lists them as a member, and writes under a key they cannot get. They cannot read it later either, when their device has all
  operations. Witness: `C122_fails`.
* **C123** — A document can be a member of another document, but only changes in a *group* are carried over to the documents it is a
  member of (`keyhive.rs:482-643`, the branches for `Membered::Document`). After Alice is revoked from document 400, which is a member of
  document 300, Alice is no longer counted among the members of 300 but stays in its key group, and reads what is written in it from then
  on; the same way somebody added to 400 becomes a member of 300 without getting keys. Witness: `C123_fails`.
* **C124** — `revoke_member` leaves in the key group everybody still reachable through some member, with whatever access: `individual_ids` and
  `transitive_members` are asked who, not what they may do (`document.rs:322-325`, `keyhive.rs:615-622`). Alice, who may read a document and is in
  a group that may relay it, goes on reading after the right to read is revoked. Witness: `C124_fails`.
  Nor does it remove those whose access rested on the revoked member: with the chain 5 → Alice → Bob → Carol, once Alice and Bob are revoked Carol
  is no member (`rebuild` drops the delegation of Bob), but only the individuals behind Alice and Bob leave the key group, and Carol's device
  reads what is written next. Witness: `C124_fails_cascade`.
* **C125** — `add_member` on a document puts the new readers in the key group of that document only. Documents that have it as a reading
  member count them as readers from then on (`transitive_members`), but their key groups stay as they are, and the new readers cannot read what is
  written there. Witness: `C125_fails`.
* **C126** — The creator of a document whose place was changed while the document was public (see C113) is in the key group and yet every attempt to
  write fails, as the group has a current secret they cannot derive and no update is made. Witness: `C126_fails`.
* **C127** — A device that lacks the secret of the prekey with which its agent was added leaves over the addition and every later operation of the
  document, so that it can never be brought up to date. Witness: `C127_fails`.
* **C128** — `get_agent_revocations` of a group reads the store that all groups of the device share, and gives the revocations of the agent from every
  other group and document as well, even if the agent is a member of the group that is asked. Witness: `C128_fails`.
* **C129** — `add_multiple` gives up at the first failure and drops the operations it has already recorded: they are in the history of the group, later
  operations name them as predecessors, but the caller never gets them to send. With a removal waiting to be replayed an individual named can be
  missing from the group after a successful call. Witness: `C129_fails`.
* **C131** — `tryEncryptArchive` is documented to use a fresh document secret, but does what `tryEncrypt` does: it uses the current group secret.
  Witness: `C131_fails`.
* **C132** — `add_member` on a document records the delegation before it looks for the key tree. If the tree has not come yet the call returns an error,
  but the agent is a member. `generate_doc` that fails leaves the founding delegations in the store. Witness: `C132_fails`.
* **C133** — A device that made a document acts in its key tree in the name of the document's own key. Receiving back the invitation it issued to itself, which any
  synchronisation does, makes it act in its own name from then on, although the operation was on record. Witness: `C133_fails`.
* **C134** — Nothing looks at `Access::Edit` when content is written or read: content is not signed, and whoever holds the group secret, that is, everybody who may read, can write what all other devices accept. Witness: `C134_fails`.
* **C135** — In two groups that are admins of each other, somebody who is a reader of the first and an admin of the second is listed as an admin by the first and as a reader by the second: the walk keeps what it finds last. Witness: `C135_fails`.
* **C136** — A delegation takes the revocations it names out of the heads. If somebody else is added between Bob's removal and the second addition of Bob, the second addition names no revocation, is word for word the delegation that was revoked, and is discarded when the group is rebuilt: the call succeeds and Bob is not a member. Witness: `C136_fails`.
* **C137** — The whole chain of a new delegation is checked with the present members of the groups in it. A member added by somebody who acted for a group, and who has left that group since, stays a member but can add nobody. Somebody whose access comes through groups is refused if the first group found gives too little, even if another gives enough, and if they are themselves a member with less. Witness: `C137_fails`.
* **C138** — Concurrent revocations are sorted by the distance of the revocation, which counts the revoked delegation as well as the proof, so two members who revoke each other always tie; both revocations count and both members are removed, also if one was added by the group key and the other by a member. Where distances differ, the revocation closer to the root is put first in a list that is worked through from the end, and so takes effect last (`C138_order_fails`). Witness: `C138_fails`.
* **C139** — `ingest_unsorted_static_events` reads the pending events when it begins and replaces the whole list when it is stuck, without a lock in between. Of two calls that run at the same time and are both stuck, the second one overwrites what the first one left: its events are gone, although the caller was told that they are pending, and are not applied when what they were waiting for arrives. Witness: `C139_fails`.
* **C140** — `add_delegation` does not look at the revocations a delegation names, and a device finds them among those of all groups. With a revocation of another group its whole history enters the group, and `rebuild` lets a delegation of the other group count if the issuer of its proof has the access in this group. So if Bob is admin of a group and has made somebody admin of another group, that person, who may only relay events of the first group, can make anybody admin of it. Witness: `C140_fails`.
* **C141** — `into_archive` reads the stores of operations first and then, one after the other and without holding a lock throughout, the individuals, groups, documents and pending events. If a delegation is received in between, the archive has a group with a head that is not among its operations, and `try_from_archive` refuses it as a whole; an event that was pending and is applied in between can be missing from the archive altogether (`C141_lost_fails`). Witness: `C141_fails`.
* **C142** — `receive_delegation` releases the locks on groups and documents after it has not found the subject, and then makes a new group and inserts it. If two calls do this at the same time for two root delegations of one group (a group made with coparents has several), the second one replaces the group of the first. The first delegation is in the store of delegations, so that receiving it again does nothing: its delegate stays out of the group. Witness: `C142_fails`.
* **C143** — `expand_prekeys` inserts the new prekey into the individual and after that stores its secret; `rotate_prekey` does it the other way round. If the future is dropped while it waits for the lock on the secrets, the prekey is shown to others, is archived and may be chosen for an invitation, and nobody has its secret. Witness: `C143_fails`.
* **C144** — `revoke_member` on a group first revokes in the group and then removes the individuals from the key groups of the documents. If it is dropped, or the process ends, in between, the revoked individual stays in the key groups of the documents not gone through. A second call finds that the individual is not a member any more and does nothing, so that the individual, who does not count as a member of the document, goes on reading what is written there. Witness: `C144_fails`.
* **C147** — two calls can wait for each other forever. `generate_doc` locks the random numbers and then, to pick a prekey, the own agent, while `contact_card`, `rotate_prekey`, `expand_prekeys` and `generate_group` lock the own agent and then the random numbers (document.rs:167, 187; agent.rs:136-141; keyhive.rs:253, 319-324, 378-393; active.rs:159-186). `reachable_docs` (and so `revoke_member`) and `receive_cgka_op` for the addition of the own agent lock the own agent and then the document, while `add_member` of the own agent, or of a group they are in, to that document locks the document and then the own agent (keyhive.rs:746-751, 1799-1816, 537-542; agent.rs:136-141). `add_member` to a group with `other_relevant_docs` locks the group and then the documents, while listing the members of a document locks the document and then the groups in it (group.rs:453-459, 326). Listing the members of two groups that are members of each other locks them in opposite orders. One call alone hangs when the document is among its own `other_relevant_docs`, or when the group added to it or revoked from it has the document as a member, or when somebody adds to a group of which they are a member only through a group that has it as a member (group.rs:503), or when a revocation is for a group nobody knows (C36), which blocks whatever else is received; `add_cgka_members_from_prekeys` warns of this (document.rs:274-278), but `Document::add_member` picks the prekeys with the document locked. Witness: `C147_fails_making`, `C147_fails_alone`, `C147_fails`.

## 6. Which code is modelled

| code | module | not modelled |
|------|--------|--------------|
| `beekem/src/treemath.rs` | `TreeMath` | — |
| `beekem/src/{tree,keys,secret_store,encrypted}.rs` | `BeeKem` | the bytes of ciphertexts, X25519 and the KDF (symbolic) |
| `beekem/src/{cgka,operation,pcs_key,topsort}.rs` | `Cgka` | serialisation |
| `keyhive_core/src/principal/group/*.rs`, `group.rs`, `membered.rs`, `agent.rs` walks | `Group` | listeners (except their calls in `Core/Listener`) |
| `keyhive_core/src/principal/individual*`, `active.rs` prekeys, `contact_card.rs`, registry in `keyhive.rs` | `Prekey` | — |
| `keyhive_core/src/store/ciphertext*`, causal decryption in `document.rs`, `keyhive_crypto` envelopes and sealing | `Cipher`, `Crypto` | the cipher itself (symbolic) |
| `keyhive_core/src/keyhive.rs`: `receive_*`, `ingest_unsorted_static_events`, `promote_individual_to_group`, `generate_group`, `generate_doc`, `add_member`, `revoke_member`, `try_encrypt_content`, `try_decrypt_content`, `force_pcs_update`, `try_pcs_key_hash`, `get_agent`, the queries of `events_for_agent` and `*_for_all_agents`, `into_archive`, `try_from_archive`, `ingest_archive`, `stats`, `get_membership_operation`, `register_peer`, `register_individual`, `register_group`, `get_peer`, `export_prekey_secrets`, `import_prekey_secrets`, `static_event_to_event`, `fork_async`, `merge_async` with what each call reports to `listener/log.rs` | `Keyhive`; interleaved and given up in `Keyhive/{Overlap,Save,Race,GivenUp}`, `Prekey/GivenUp`; their locks in `Keyhive/Locks` | listeners, `known_decryption_keys` |
| `keyhive_core/src/cgka.rs` (`insert_public_sks` and where it is called), `principal/public.rs` (the well-known secret) | `withPublic`, `publicSk` in `Keyhive/Model` | the other functions of the wrapper only convert identifiers; the well-known signing key is not a key with a value |
| `keyhive_core/src/principal/peer.rs`, registering of others in `generate_doc` | `Keyhive/Coparents` | — |
| `keyhive_core/src/debug_events.rs`, `debug_events/hash.rs` | `Keyhive/Debug` | printing (`terminal.rs`) |
| the serialised form of signed payloads: `StaticDelegation`, `StaticRevocation`, `AddKeyOp`, `RotateKeyOp`, `CgkaOperation` and what they hold; `trySign` | `Crypto/Wire` | bincode itself: its format is written down, not derived |
| `access.rs`, `content_addressed_map.rs`, `transact/*`, `listener/log.rs`, small stores | `Core` | — |
| `keyhive_crypto/src/signed.rs` (comparison, digest), `keyhive_crypto/src/hex.rs`, `debug_events/hash.rs` (`short_hex`), `idString` | `Crypto/Signed` | the bytes that are hashed and signed |
| `event.rs` (`now_decryptable`), `keyhive_wasm/src/js/ciphertext_store.rs`, `ingestEventsBytes` | `Cipher/Web`, `Keyhive/Bytes` | base64, bincode, errors of the storage itself |
| wasm bindings (except `access.rs`, the store of ciphertexts, and the tables of events, questions about access, ingestion of bytes, `tryEncryptKeyed`, `tryDecryptKeyed` and `tryEncryptArchive` in `js/keyhive.rs`), `debug_events/terminal.rs`, examples, serde/bincode, async executors | — | all |
