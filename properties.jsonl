{"id": "C01", "title": "Tree navigation is consistent", "statement": "In a ratchet tree of any power-of-two number of leaves, every node except the root has a parent inside the tree that has it as one of its two children; the two children of an inner node are distinct, have it as parent and are each other's sibling; no leaf has children and the root is the only node without a parent.", "quantifier": "every tree height, every node index in a tree of that height", "why_tests_cant": "tests only visit a few small trees; the bit tricks must be right for every size the tree can ever grow to", "anchors": ["beekem/src/treemath.rs: parent, sibling, left, right, root, level, TreeSize"]}
{"id": "C02", "title": "Direct paths climb to the root", "statement": "The direct path of any leaf of a tree with 2^k leaves has exactly k nodes, each node is the parent of the one before it, the first is the leaf's parent, the last is the root, levels go up by one at each step and every index is inside the tree; the computation terminates.", "quantifier": "every tree height and every leaf", "why_tests_cant": "loop termination and bounds depend on bit arithmetic for all sizes", "anchors": ["beekem/src/treemath.rs: direct_path, root, parent, level"]}
{"id": "C03", "title": "Two members always meet below a common ancestor", "statement": "For any two distinct leaves of the same tree there is a node on both direct paths such that the two leaves lie under different children of it, and above it both direct paths coincide.", "quantifier": "every tree height, every pair of distinct leaves", "why_tests_cant": "quantifies over all pairs in all tree sizes", "anchors": ["beekem/src/treemath.rs: direct_path, sibling"]}
{"id": "C04", "title": "Member bookkeeping of the key tree matches a set of members", "statement": "After any sequence of successful tree operations (create, add a new member, remove a member, install an update path) the identifiers the tree reports as members are exactly those added and not removed since, each has exactly one occupied leaf, the reported group size is their number, and no operation reads or writes outside the tree.", "quantifier": "every sequence of tree operations, any number of members", "why_tests_cant": "growth, blanking, compaction and reuse of leaf slots interact over arbitrarily long histories", "anchors": ["beekem/src/tree.rs: BeeKem::new, push_leaf, remove_id, apply_path, maybe_grow_tree, member_count, contains_id"]}
{"id": "C05", "title": "Membership changes retire the group secret", "statement": "Immediately after a member is added to or removed from the key tree there is no root key, whatever the tree was before, so nothing can be encrypted under the old group secret until someone performs a key update; a key update by a member installs a root key.", "quantifier": "every reachable tree, every member", "why_tests_cant": "depends on every tree shape and blank pattern", "anchors": ["beekem/src/tree.rs: blank_path, push_leaf, remove_id, encrypt_path, has_root_key", "beekem/src/cgka.rs: has_pcs_key"]}
{"id": "C06", "title": "A key update reaches every member", "statement": "After a member performs a key update in any tree without key conflicts, every other member who holds the secret of its own leaf key can decrypt the root secret from the public tree, and obtains the same secret as the updater; decryption never panics or errors.", "quantifier": "every reachable conflict-free tree, every updater, every other member", "why_tests_cant": "all blank patterns, all pairs of members, all tree sizes", "anchors": ["beekem/src/tree.rs: encrypt_path, decrypt_tree_secret, maybe_decrypt_parent_key, encrypt_new_secret_store_for_parent, append_resolution"]}
{"id": "C07", "title": "A removed member is cut off by the next update", "statement": "After a member is removed and another member performs a key update, neither the new root secret nor any later one can be derived by someone who holds only the removed member's leaf secret, every tree secret on that member's path at the time of the removal and every tree secret replaced before it, even with all public tree data.", "quantifier": "every reachable tree, every removed member, every later updater, every derivation strategy", "why_tests_cant": "secrecy quantifies over all attacker derivations", "anchors": ["beekem/src/tree.rs: remove_id, blank_leaf_and_path, encrypt_path, append_resolution, encrypt_new_secret_store_for_parent"]}
{"id": "C08", "title": "Update heals a compromised leaf", "statement": "After a member performs a key update with a fresh leaf secret, an attacker who knew that member's previous leaf secret and every old secret on its path, but no secret of another member, cannot derive the new root secret from public data (post-compromise security).", "quantifier": "every reachable tree, every updating member, every derivation", "why_tests_cant": "secrecy quantifies over all attacker derivations", "anchors": ["beekem/src/tree.rs: encrypt_path, apply_path"]}
{"id": "C09", "title": "Concurrent key updates keep every key", "statement": "When concurrent updates set different keys on the same node, the merged node contains exactly the new keys and every old key that the incoming change did not declare removed, and the merged key set does not depend on the order in which concurrent changes are merged.", "quantifier": "every node state, every set of removed keys, every merge order", "why_tests_cant": "order-independence over all permutations", "anchors": ["beekem/src/keys.rs: NodeKey::merge", "beekem/src/secret_store.rs: SecretStore::merge", "beekem/src/tree.rs: apply_path"]}
{"id": "C10", "title": "Removing a member removes all of its leaves", "statement": "After a member has been removed no leaf of the key tree carries that member's identity, also when it had been added concurrently by two peers.", "quantifier": "every history of adds and removes including concurrent adds of the same identity", "why_tests_cant": "requires concurrent histories that no single test covers", "anchors": ["beekem/src/tree.rs: push_leaf, remove_id, id_to_leaf_idx", "beekem/src/cgka.rs: apply_operation, apply_epochs"]}
{"id": "C11", "title": "Key-agreement operations are applied only after their causal past, and only once", "statement": "Delivering a group-key operation whose predecessors are unknown is refused with an error and leaves all state unchanged; delivering an operation that is already known succeeds and changes nothing.", "quantifier": "every state, every operation", "why_tests_cant": "all states and all operations", "anchors": ["beekem/src/cgka.rs: merge_concurrent_operation", "beekem/src/operation.rs: contains_predecessors, contains_op_hash"]}
{"id": "C12", "title": "Group-key state converges", "statement": "Two replicas of a group that have merged the same set of group-key operations, in any two orders compatible with causality, have the same operation graph, the same heads and, after replay, the same key tree; if one can replay, so can the other. (All operations descend from the creation of the group, and no local call failed half way; see C61 for the latter.)", "quantifier": "every finite operation set, every pair of causal delivery orders", "why_tests_cant": "quantifies over all interleavings", "anchors": ["beekem/src/cgka.rs: merge_concurrent_operation, apply_operation, replay_ops_graph, rebuild_cgka", "beekem/src/operation.rs: add_op_and_update_heads"]}
{"id": "C13", "title": "Heads are exactly the operations nobody has seen past", "statement": "After any causal sequence of local and remote operations, the current heads are exactly the known operations that are not a predecessor of another known operation.", "quantifier": "every causal history", "why_tests_cant": "inductive over histories", "anchors": ["beekem/src/operation.rs: add_local_op, add_op, add_op_and_update_heads, merge"]}
{"id": "C14", "title": "Replay order is a faithful linearisation", "statement": "The ordering used to rebuild the key tree contains every operation in the causal past of the requested heads exactly once and nothing else, never places an operation before one of its predecessors, and groups only mutually concurrent-or-same-epoch operations together.", "quantifier": "every operation graph, every choice of heads inside the graph", "why_tests_cant": "all DAG shapes", "anchors": ["beekem/src/operation.rs: topsort_for_heads", "beekem/src/topsort.rs: TopologicalSort"]}
{"id": "C15", "title": "Replay never loses a group", "statement": "Replaying any causally complete operation graph that honest peers can produce succeeds.", "quantifier": "every causally complete graph of honest operations, including concurrent removals of the same member", "why_tests_cant": "needs all concurrent histories", "anchors": ["beekem/src/cgka.rs: apply_epochs, rebuild_cgka", "beekem/src/tree.rs: remove_id"]}
{"id": "C16", "title": "A group key is current only when nothing is outstanding", "statement": "The group reports that it has a usable current group secret only if the tree has a root key, there is exactly one head operation and at most one outstanding add; in particular never right after merging an add, a remove or two concurrent updates.", "quantifier": "every CGKA state", "why_tests_cant": "all histories", "anchors": ["beekem/src/cgka.rs: has_pcs_key, merge_concurrent_operation, new_app_secret_for"]}
{"id": "C17", "title": "Old content stays decryptable", "statement": "Once a member has derived the group secret of an update, content encrypted under it can still be decrypted after any number of further adds, removes and updates.", "quantifier": "every history extension", "why_tests_cant": "monotonicity over unbounded histories", "anchors": ["beekem/src/cgka.rs: pcs_keys, pcs_key_ops, insert_pcs_key, decryption_key_for, pcs_key_from_hashes"]}
{"id": "C18", "title": "Content keys are bound to content, predecessors and group secret", "statement": "Encrypting content and decrypting it with the same group secret gives back the plaintext; the content key is a deterministic function of the group secret, content reference and predecessor list, and two that differ in the secret, the reference or the list of predecessors (also in its order) give different keys unless the hash function collides.", "quantifier": "every plaintext, reference, predecessor list and group secret", "why_tests_cant": "functional injectivity over all inputs", "anchors": ["beekem/src/pcs_key.rs: derive_application_secret", "beekem/src/encrypted.rs", "beekem/src/cgka.rs: new_app_secret_for, decryption_key_for"]}
{"id": "C19", "title": "Forking and merging key-agreement state loses nothing", "statement": "Work done on a fork of a group-key state and merged back leaves every operation, derived secret and share key of both sides present; heads after the merge are the heads of the union.", "quantifier": "every pair of trunk and fork", "why_tests_cant": "all interleavings", "anchors": ["beekem/src/cgka.rs: Fork/Merge for Cgka", "beekem/src/operation.rs: CgkaOperationGraph::merge", "beekem/src/keys.rs: ShareKeyMap::merge"]}
{"id": "C20", "title": "Only authorised agents can change who holds the document key", "statement": "A group-key operation received from the network changes a document's key tree only if its signer is entitled to do so (a current member of the document).", "quantifier": "every received operation, every signer, every document state", "why_tests_cant": "all adversarial signers", "anchors": ["keyhive_core/src/keyhive.rs: receive_cgka_op", "keyhive_core/src/principal/document.rs: merge_cgka_op"]}
{"id": "C21", "title": "Every accepted delegation is rooted in the group", "statement": "Every delegation a group holds after any sequence of local and received operations has a proof chain that ends in a delegation issued by the group's own key, each link issued by the delegate of the link before it.", "quantifier": "every sequence of group operations, every received delegation", "why_tests_cant": "all chain shapes and all adversarial inputs", "anchors": ["keyhive_core/src/principal/group/state.rs: add_delegation", "keyhive_core/src/principal/group/delegation.rs: proof_lineage", "keyhive_core/src/principal/group.rs: receive_delegation"]}
{"id": "C22", "title": "No privilege escalation by delegation", "statement": "A delegation is accepted only if it grants no more access than each delegation in its proof chain; accepted delegations therefore never grant more than the weakest link above them.", "quantifier": "every proof chain length, every access level", "why_tests_cant": "all chains and inputs", "anchors": ["keyhive_core/src/principal/group/state.rs: add_delegation", "keyhive_core/src/access.rs"]}
{"id": "C23", "title": "Operations for another group are rejected", "statement": "Receiving a delegation or revocation whose subject is another group is refused and leaves the group unchanged.", "quantifier": "every group state, every operation", "why_tests_cant": "all states", "anchors": ["keyhive_core/src/principal/group/state.rs: add_delegation, add_revocation"]}
{"id": "C24", "title": "Only entitled agents can revoke", "statement": "A revocation is accepted only if its issuer is the group itself, issued the delegation being revoked (or one above it), or proves admin-level authority with a delegation granted to it.", "quantifier": "every revocation, every signer", "why_tests_cant": "all adversarial inputs", "anchors": ["keyhive_core/src/principal/group/state.rs: add_revocation", "keyhive_core/src/keyhive.rs: receive_revocation"]}
{"id": "C25", "title": "A revoked delegation confers no membership", "statement": "After a revocation has been accepted and the membership view rebuilt, the revoked delegation is not among the delegations of any member, whatever order operations arrived in and whatever else is in the history.", "quantifier": "every set of delegations and revocations, every arrival order", "why_tests_cant": "all histories", "anchors": ["keyhive_core/src/principal/group.rs: rebuild, receive_revocation", "keyhive_core/src/principal/group/membership_operation.rs: reverse_topsort"]}
{"id": "C26", "title": "Revocation cascades to what depended on it", "statement": "When a delegation is revoked, every delegation that was justified only through it stops conferring membership.", "quantifier": "every delegation graph", "why_tests_cant": "all graph shapes; a repository test carries a FIXME for exactly this", "anchors": ["keyhive_core/src/principal/group.rs: rebuild"]}
{"id": "C27", "title": "Membership view does not depend on delivery order", "statement": "Two replicas holding the same delegations and revocations compute the same members, revoked members and access levels, regardless of the order they arrived in.", "quantifier": "every operation set, every pair of arrival orders", "why_tests_cant": "all permutations", "anchors": ["keyhive_core/src/principal/group.rs: rebuild", "keyhive_core/src/principal/group/membership_operation.rs: reverse_topsort"]}
{"id": "C28", "title": "Membership history is processed in causal order", "statement": "The order in which membership operations are replayed contains every operation reachable from the current heads exactly once and places every operation after all operations it depends on.", "quantifier": "every membership DAG, including concurrent revocations", "why_tests_cant": "all DAG shapes", "anchors": ["keyhive_core/src/principal/group/membership_operation.rs: reverse_topsort, ancestors", "keyhive_core/src/util/topsort.rs"]}
{"id": "C29", "title": "Reported capability is the strongest one held", "statement": "The capability reported for a member of a group is one of its valid delegations and no valid delegation of that member grants more.", "quantifier": "every group, every member", "why_tests_cant": "all delegation multisets", "anchors": ["keyhive_core/src/principal/group.rs: get_capability"]}
{"id": "C30", "title": "Members can add members only up to their own access", "statement": "Adding a member locally succeeds only if the signer holds at least the granted access (or is the group itself); on success the new member is in the membership view with the granted access, and on failure nothing changes.", "quantifier": "every group state, signer, candidate and access level", "why_tests_cant": "all states", "anchors": ["keyhive_core/src/principal/group.rs: add_member, add_member_with_manual_content"]}
{"id": "C31", "title": "Revoking a member removes it", "statement": "After a member is revoked locally by someone entitled to, it no longer is a member; delegations it issued to others are handled as the caller's retain flag says; an unentitled revoker is refused.", "quantifier": "every group state, signer and member", "why_tests_cant": "all states", "anchors": ["keyhive_core/src/principal/group.rs: revoke_member, build_revocation"]}
{"id": "C32", "title": "Access through nested groups never exceeds any link", "statement": "The access level reported for an agent reached through nested groups is at most the access granted on every link of some path from the group to the agent.", "quantifier": "every nesting depth and every graph of groups, including cycles", "why_tests_cant": "unbounded nesting", "anchors": ["keyhive_core/src/principal/group.rs: transitive_members", "keyhive_core/src/principal/membered.rs"]}
{"id": "C33", "title": "Transitive members are exactly the reachable agents", "statement": "Listing the transitive members of a group terminates, also for cyclic group nesting, and lists exactly the agents reachable through membership.", "quantifier": "every graph of groups", "why_tests_cant": "all graphs, including cycles", "anchors": ["keyhive_core/src/principal/group.rs: transitive_members", "keyhive_core/src/principal/agent.rs: individual_ids"]}
{"id": "C34", "title": "Redelivered membership operations change nothing", "statement": "Receiving a delegation or revocation that was already accepted is a success that leaves members, heads and history unchanged.", "quantifier": "every reachable state and every known operation", "why_tests_cant": "all histories", "anchors": ["keyhive_core/src/principal/group/state.rs: add_delegation", "keyhive_core/src/keyhive.rs: receive_delegation, receive_revocation"]}
{"id": "C35", "title": "Signature checks gate all state", "statement": "A received delegation, revocation or group-key operation with an invalid signature is refused and leaves all state unchanged.", "quantifier": "every state, every forged event", "why_tests_cant": "all adversarial inputs", "anchors": ["keyhive_core/src/keyhive.rs: receive_delegation, receive_revocation, receive_cgka_op", "keyhive_crypto/src/signed.rs: try_verify"]}
{"id": "C36", "title": "Out-of-order ingestion terminates and loses nothing", "statement": "Ingesting any batch of events in any order terminates; every event is afterwards either applied, or reported back and remembered as pending, or was a rejected prekey event; a pending event is one that still fails against the final state.", "quantifier": "every batch, every order, every starting state", "why_tests_cant": "all orders, fixpoint loop", "anchors": ["keyhive_core/src/keyhive.rs: ingest_unsorted_static_events"]}
{"id": "C37", "title": "Ingestion does not depend on order", "statement": "Ingesting the same batch of events in any order applies the same events and leaves the same ones pending.", "quantifier": "every batch and every permutation of it", "why_tests_cant": "all permutations", "anchors": ["keyhive_core/src/keyhive.rs: ingest_unsorted_static_events, receive_static_event"]}
{"id": "C38", "title": "Archives round-trip", "statement": "Saving to an archive and loading it again gives a state with the same delegations, revocations, individuals, groups, documents, members and pending events.", "quantifier": "every reachable state", "why_tests_cant": "all states", "anchors": ["keyhive_core/src/keyhive.rs: into_archive, try_from_archive", "keyhive_core/src/principal/group.rs: into_archive, dummy_from_archive"]}
{"id": "C39", "title": "What is sent to an agent is self-contained", "statement": "The membership operations selected for an agent are closed under dependencies: an agent that receives exactly those can apply all of them.", "quantifier": "every state, every agent", "why_tests_cant": "all DAGs", "anchors": ["keyhive_core/src/keyhive.rs: membership_ops_for_agent, membership_ops_for_all_agents", "keyhive_core/src/principal/group/membership_operation.rs: bfs_membership_ops, push_membership_edges"]}
{"id": "C40", "title": "The prekey set is a CRDT", "statement": "The active prekeys of an individual depend only on the set of prekey operations received, not on order or duplication; merging two replicas is commutative, associative and idempotent; a rotated-away key is never active.", "quantifier": "every set of prekey operations, every order", "why_tests_cant": "all orders", "anchors": ["keyhive_core/src/principal/individual/state.rs: PrekeyState::build, merge, insert_op"]}
{"id": "C41", "title": "Forged prekeys are never accepted", "statement": "A key that an individual did not sign never becomes one of its active prekeys.", "quantifier": "every received contact card and prekey event", "why_tests_cant": "all adversarial inputs", "anchors": ["keyhive_core/src/keyhive.rs: receive_contact_card, receive_prekey_op", "keyhive_core/src/principal/individual.rs: receive_prekey_op, new"]}
{"id": "C42", "title": "Picking a prekey always returns an active prekey", "statement": "Choosing a prekey of an individual for a document terminates without panicking and returns one of the individual's active prekeys; the choice is a deterministic function of individual and document.", "quantifier": "every non-empty prekey set, every document id, every hash output", "why_tests_cant": "all set sizes; an off-by-one only shows for particular sizes", "anchors": ["keyhive_core/src/principal/individual.rs: pick_prekey, pseudorandom_in_range, clamp"]}
{"id": "C43", "title": "Individuals never run out of prekeys", "statement": "The number of active prekeys never falls when valid add and rotate operations are received, so an individual always has a prekey.", "quantifier": "every set of validly signed prekey operations", "why_tests_cant": "all histories incl. rotation cycles", "anchors": ["keyhive_core/src/principal/individual/state.rs: build", "keyhive_core/src/principal/individual/op.rs"]}
{"id": "C44", "title": "Prekey history is emitted in dependency order", "statement": "Listing prekey operations for sync terminates, contains every operation, and puts each rotation after the operation that introduced the key it rotates.", "quantifier": "every set of prekey operations", "why_tests_cant": "all graphs incl. cycles", "anchors": ["keyhive_core/src/principal/individual/op.rs: KeyOp::topsort"]}
{"id": "C45", "title": "Ciphertext store returns what was put in", "statement": "After any sequence of inserts and removals of ciphertexts the store finds exactly the ciphertexts inserted and not removed, by content reference and by group-key update.", "quantifier": "every sequence of store operations", "why_tests_cant": "stateful index consistency over histories", "anchors": ["keyhive_core/src/store/ciphertext/memory.rs: insert, remove, remove_all, get_by_content_ref, get_by_pcs_update"]}
{"id": "C46", "title": "Causal decryption is sound and complete", "statement": "Starting from content one can decrypt, causal decryption terminates and returns exactly the plaintexts of ancestors reachable through decrypted envelopes and present in the store; a missing ancestor is reported, not silently skipped.", "quantifier": "every ancestor graph, including shared and missing ancestors", "why_tests_cant": "all graphs", "anchors": ["keyhive_core/src/store/ciphertext.rs: try_causal_decrypt", "keyhive_core/src/principal/document.rs: try_causal_decrypt_content", "keyhive_core/src/crypto/envelope.rs"]}
{"id": "C47", "title": "Sealing and opening are inverse", "statement": "Opening a sealed message with the same key returns the message; opening input shorter than a nonce or with another key fails with an error and never panics.", "quantifier": "every key, nonce, message and byte string", "why_tests_cant": "all byte strings", "anchors": ["keyhive_crypto/src/symmetric_key.rs: try_seal, try_open, try_encrypt, try_decrypt"]}
{"id": "C48", "title": "Access levels form a chain with consistent predicates", "statement": "Access levels are totally ordered relay < read < edit < admin and the reader/editor/admin predicates are monotone in it; converting to and from names is inverse.", "quantifier": "every access level", "why_tests_cant": "finite, but everything else relies on it", "anchors": ["keyhive_core/src/access.rs: Access"]}
{"id": "C49", "title": "Content-addressed maps are grow-only sets", "statement": "Every entry is stored under the hash of its value, insertion is idempotent, and merging maps is commutative, associative and idempotent and keeps every entry.", "quantifier": "every map and every sequence of inserts", "why_tests_cant": "all histories", "anchors": ["keyhive_core/src/util/content_addressed_map.rs: CaMap", "beekem/src/content_addressed_map.rs"]}
{"id": "C50", "title": "Transactions are all-or-nothing", "statement": "If a transaction fails the original state is unchanged; if it succeeds the result contains everything in the original and everything added on the fork.", "quantifier": "every state, every transaction body", "why_tests_cant": "all bodies", "anchors": ["keyhive_core/src/transact.rs: transact_blocking, transact_async", "keyhive_core/src/transact/merge.rs"]}
{"id": "C51", "title": "Revocations can be found by the agent they affect", "statement": "At all times the revocations listed for an agent are exactly the stored revocations whose revoked delegation was granted to that agent.", "quantifier": "every sequence of inserts and removals", "why_tests_cant": "index consistency over histories", "anchors": ["keyhive_core/src/store/revocation.rs: insert, remove_by_hash, get_revocations_for_agent"]}
{"id": "C52", "title": "Document key access follows readership", "statement": "Adding a member to a document adds to its key tree exactly the individuals behind that member when the access includes reading, and none otherwise; revoking removes from the key tree exactly those of its individuals no longer reachable through another member.", "quantifier": "every document, every member (individual or nested group), every access level", "why_tests_cant": "nested groups and overlapping membership", "anchors": ["keyhive_core/src/principal/document.rs: add_member, revoke_member", "keyhive_core/src/keyhive.rs: add_member, revoke_member"]}
{"id": "C53", "title": "A known individual that turns out to be a group becomes usable as a group", "statement": "After receiving a delegation for an agent previously known only as an individual, the agent is known as a group holding that delegation.", "quantifier": "every state, every delegation", "why_tests_cant": "state-dependent path", "anchors": ["keyhive_core/src/keyhive.rs: receive_delegation, promote_individual_to_group"]}
{"id": "C54", "title": "Revocations reach the group they are about", "statement": "An accepted revocation is recorded with the group whose delegation it revokes.", "quantifier": "every state and revocation", "why_tests_cant": "all states", "anchors": ["keyhive_core/src/keyhive.rs: receive_revocation"]}
{"id": "C55", "title": "Queued events are handed over exactly once, earliest or latest as asked", "statement": "The queue listener hands out every pushed event exactly once; asking for the earliest event returns the one pushed longest ago and asking for the latest returns the one pushed last.", "quantifier": "every sequence of pushes and pops", "why_tests_cant": "all interleavings", "anchors": ["keyhive_core/src/listener/deque.rs", "keyhive_core/src/listener/log.rs"]}
{"id": "C56", "title": "Bulk sync queries agree with single-agent queries", "statement": "The per-agent event sets computed in bulk for all agents agree with those computed for each agent separately.", "quantifier": "every state, every agent", "why_tests_cant": "all states", "anchors": ["keyhive_core/src/keyhive.rs: membership_ops_for_all_agents, reachable_prekey_ops_for_all_agents, cgka_ops_for_all_agents"]}
{"id": "C57", "title": "Public individual is fixed", "statement": "Received prekey events never change the prekeys of the built-in public individual.", "quantifier": "every received event", "why_tests_cant": "all inputs", "anchors": ["keyhive_core/src/keyhive.rs: receive_prekey_op", "keyhive_core/src/principal/public.rs"]}
{"id": "C58", "title": "New members cannot read before they joined", "statement": "The root secret in force before a member was added is not derivable from that member's leaf secret and the public tree data after the add.", "quantifier": "every reachable tree, every new member, every derivation", "why_tests_cant": "secrecy over all derivations", "anchors": ["beekem/src/tree.rs: push_leaf, blank_path", "beekem/src/cgka.rs: add"]}
{"id": "C59", "title": "Docs reachable by an agent are exactly those it is a transitive member of", "statement": "An agent is told about exactly the documents and groups it is a direct or transitive member of, with its access level.", "quantifier": "every state, every agent", "why_tests_cant": "all membership graphs", "anchors": ["keyhive_core/src/keyhive.rs: docs_reachable_by_agent, membered_reachable_by_agent"]}
{"id": "C60", "title": "Trailing-zero counts of digests are correct", "statement": "The number of trailing zeros reported for a digest is the number of zero bits at its end, and the number of trailing zero bytes is the number of zero bytes at its end.", "quantifier": "every 32-byte digest", "why_tests_cant": "all byte strings", "anchors": ["keyhive_crypto/src/digest.rs: trailing_zeros, trailing_zero_bytes"]}
{"id": "C61", "title": "A failed key-agreement call changes nothing", "statement": "When adding a member, removing a member, updating, encrypting or merging an operation returns an error, the group's recorded operations, heads, known group secrets and key tree (once replayed) are what they were before the call.", "quantifier": "every reachable group state, every call, every point of failure including a signer that fails", "why_tests_cant": "all states and all failure points", "anchors": ["beekem/src/cgka.rs: add, remove, update, new_app_secret_for, merge_concurrent_operation"]}
{"id": "C62", "title": "The key tree kept step by step is the one a replay produces", "statement": "For every history, rebuilding the key tree from the recorded operations gives the tree obtained by applying them as they arrived; in particular every group secret that was once current can be derived again from the operations.", "quantifier": "every history of local calls, deliveries, forks and merges", "why_tests_cant": "all histories", "anchors": ["beekem/src/cgka.rs: merge_concurrent_operation, replay_ops_graph, derive_pcs_key_for_op, merge", "beekem/src/operation.rs: CgkaOperationGraph::merge, topsort_for_heads"]}
{"id": "C63", "title": "Encrypted content names the update that made its group secret", "statement": "Content encrypted by a member names the update operation whose secret it is encrypted with, so that every member who knows that operation can derive the key, whatever content the author had been sent before.", "quantifier": "every reachable group state, every previously received content", "why_tests_cant": "all histories including forged input", "anchors": ["beekem/src/cgka.rs: new_app_secret_for, decryption_key_for, pcs_key_ops"]}
{"id": "C64", "title": "Cyclic group nesting never blocks", "statement": "Receiving a membership operation or listing members returns also when groups are members of each other.", "quantifier": "every nesting of groups, every received operation", "why_tests_cant": "all nestings; blocking depends on which locks are held", "anchors": ["keyhive_core/src/principal/group/state.rs: add_delegation, add_revocation, is_transitive_member_of", "keyhive_core/src/principal/group.rs: transitive_members", "keyhive_core/src/principal/membered.rs"]}
{"id": "C65", "title": "A revoked member cannot restore itself", "statement": "Once a revocation of an agent's only delegation is in effect and the agent is no longer a member, nothing signed by that agent alone makes it a member again.", "quantifier": "every group state, every operation signed by the revoked agent", "why_tests_cant": "all operations an attacker can sign", "anchors": ["keyhive_core/src/principal/group.rs: rebuild, receive_delegation"]}
{"id": "C66", "title": "A failed revocation of a member changes nothing", "statement": "When revoking a member returns an error the group's members and operations are what they were before the call.", "quantifier": "every group state, every signer, every point of failure", "why_tests_cant": "all failure points", "anchors": ["keyhive_core/src/principal/group.rs: revoke_member"]}
{"id": "C67", "title": "Accepted membership operations are never lost", "statement": "After any sequence of accepted operations a group holds every operation it ever accepted together with its past, and nothing else.", "quantifier": "every sequence of accepted operations", "why_tests_cant": "all histories and delivery orders", "anchors": ["keyhive_core/src/principal/group/state.rs: add_delegation, add_revocation", "keyhive_core/src/principal/group/delegation.rs: is_ancestor_of"]}
{"id": "C68", "title": "Every active prekey can be chosen", "statement": "The prekey chosen for adding an individual to a document depends on the document: for every active prekey there is a document identifier (hash value) for which it is chosen.", "quantifier": "every individual with at least one active prekey", "why_tests_cant": "a sampled set of documents cannot show that some prekey is unreachable", "anchors": ["keyhive_core/src/principal/individual.rs: pick_prekey, pseudorandom_in_range, clamp"]}
{"id": "C69", "title": "The owner holds the secret of each of its active prekeys", "statement": "On every device of an agent, the secret of each prekey the agent currently advertises is known, so that an invitation to any of them can be opened.", "quantifier": "every sequence of generating, rotating, expanding, importing and receiving the own agent's operations", "why_tests_cant": "all sequences of calls", "anchors": ["keyhive_core/src/principal/active.rs: generate, rotate_prekey, expand_prekeys, import_prekey_secrets", "keyhive_core/src/keyhive.rs: receive_prekey_op"]}
{"id": "C70", "title": "Junk ciphertexts do not hide genuine ones", "statement": "If the store holds a ciphertext for some content that opens under the key one has for that content, causal decryption yields its plaintext, whatever other ciphertexts the store holds for the same content.", "quantifier": "every store content, every set of further ciphertexts with the same content reference", "why_tests_cant": "adversarial inputs", "anchors": ["keyhive_core/src/store/ciphertext/memory.rs: get_by_content_ref", "keyhive_core/src/store/ciphertext.rs: try_causal_decrypt"]}
{"id": "C71", "title": "Concurrent membership changes retire the group secret", "statement": "When concurrent operations that include adding or removing a member are merged, afterwards there is no group secret until the next update, even if the merged operations include key updates; every key above a removed member's position is gone.", "quantifier": "every replay, every batch of concurrent operations, every mix of adds, removals and updates", "why_tests_cant": "all batches and interleavings", "anchors": ["beekem/src/cgka.rs: apply_epochs", "beekem/src/tree.rs: sort_leaves_and_blank_paths_for_concurrent_membership_changes"]}
{"id": "C72", "title": "A member added concurrently with a removal stays a member", "statement": "Merging concurrent operations keeps every member that was not removed, with its key at exactly one place in the tree, so that later updates reach it; no key above a newly added member survives.", "quantifier": "every history and every batch of concurrent adds and removals", "why_tests_cant": "all batches and interleavings", "anchors": ["beekem/src/cgka.rs: apply_epochs", "beekem/src/tree.rs: sort_leaves_and_blank_paths_for_concurrent_membership_changes"]}
{"id": "C73", "title": "The secret of an earlier update can be derived again", "statement": "A member that knows the history of some update derives from the recorded operations the group secret that update established, and opens content encrypted with it, whatever else it has learnt since and whatever the current group secret is.", "quantifier": "every history, every recorded operation, every later state of every replica", "why_tests_cant": "all histories and all later states", "anchors": ["beekem/src/cgka.rs: decryption_key_for, pcs_key_from_hashes, derive_pcs_key_for_op, rebuild_pcs_key", "beekem/src/operation.rs: topsort_for_heads"]}
{"id": "C74", "title": "Adding and removing act on everything received so far", "statement": "When adding an individual to a document's key group succeeds, that individual is a member once everything received so far is taken into account; when removing one succeeds, it is not.", "quantifier": "every state of a replica, including operations received and not yet replayed, every individual", "why_tests_cant": "all interleavings of received and local operations", "anchors": ["beekem/src/cgka.rs: add, remove, replay_ops_graph, should_replay"]}
{"id": "C75", "title": "An agent is told everything about the groups it is in", "statement": "The events a device selects for an agent include every delegation and revocation it holds about the groups and documents the agent is a member of, and about every group nested in them, so that a device that has only these shows the same members.", "quantifier": "every state of a device, every agent, every nesting of groups", "why_tests_cant": "all membership graphs and histories", "anchors": ["keyhive_core/src/keyhive.rs: events_for_agent, static_events_for_agent, membership_ops_for_agent", "keyhive_core/src/principal/group/membership_operation.rs: push_membership_edges"]}
{"id": "C76", "title": "A restored device carries on where the saved one was", "statement": "After loading a device from its archive, every call made on it has the same outcome as on the device that was saved, the two keep the same members, operations, key trees and pending events, and give every agent the same answer about the documents it can reach.", "quantifier": "every state of a device, every later sequence of calls", "why_tests_cant": "all histories before and after the restart", "anchors": ["keyhive_core/src/keyhive.rs: try_from_archive, into_archive, ingest_unsorted_static_events"]}
{"id": "C77", "title": "Taking in an archive adds everything it holds", "statement": "After a device takes in an archive of the same agent it has all the membership operations, individuals, prekeys, prekey secrets, key trees and pending events the archive holds, besides what it had; archives of other agents do not change who it is.", "quantifier": "every state of a device, every archive", "why_tests_cant": "all pairs of histories", "anchors": ["keyhive_core/src/keyhive.rs: ingest_archive"]}
{"id": "C78", "title": "Archives do not bypass signatures", "statement": "Whatever an archive says, no membership operation whose signature does not verify takes effect on a device that loads it or takes it in.", "quantifier": "every archive, however made", "why_tests_cant": "adversarial inputs", "anchors": ["keyhive_core/src/keyhive.rs: try_from_archive, ingest_archive"]}
{"id": "C79", "title": "Devices with the same operations agree about members", "statement": "If two devices, of the same user or of different users, hold the same delegations and revocations, then they show the same members, with the same access, for every group and document, whatever the order in which the operations arrived and whatever else the devices know.", "quantifier": "every pair of devices and every two histories through which they came to hold the same operations", "why_tests_cant": "depends on the order of arrival, on the contacts of each device and on hash-map iteration order; tests fix all of them", "anchors": ["keyhive_core/src/keyhive.rs: receive_delegation, receive_revocation, ingest_unsorted_static_events", "keyhive_core/src/principal/group.rs: rebuild, members"]}
{"id": "C80", "title": "What a member writes, every member can read", "statement": "In a group whose members all run the library, content written by one member can be read, at once and at any later time, by every other member that has received the operations the writer had received, whatever else it has received since; members with the same operations derive the same group secret.", "quantifier": "every history of calls and deliveries among any number of replicas, every writer, every reader, every later state of the reader", "why_tests_cant": "all histories, orders of delivery and later states; needs the whole chain from updates through delivery and replay to decryption", "anchors": ["beekem/src/cgka.rs: new_app_secret_for, decryption_key_for, merge_concurrent_operation, update", "beekem/src/tree.rs: encrypt_path, apply_path, decrypt_tree_secret"]}
{"id": "C81", "title": "An agent is told every group-key operation of its documents", "statement": "The events a device selects for an agent contain every group-key operation recorded for every document of which the agent is a member, directly or through groups, no group-key operation of another document, and none before one it depends on.", "quantifier": "every reachable device, every agent, every document, every key-tree history", "why_tests_cant": "all histories of receptions and calls and all graphs of operations; a test sees one linear history", "anchors": ["keyhive_core/src/keyhive.rs: events_for_agent, cgka_ops_reachable_by_agent, static_events_for_agent", "keyhive_core/src/principal/document.rs: cgka_ops", "beekem/src/operation.rs: topsort_graph"]}
{"id": "C82", "title": "A device does not forget the keys of its documents", "statement": "A group-key operation that a device accepted is recorded and stays recorded. Content of a document that the device has once written or decrypted it can decrypt from then on, to the same plaintext, whatever it receives and does in between, be it that it is removed from the document.", "quantifier": "every reachable device, every document, every content, every later sequence of receptions and calls", "why_tests_cant": "every later history, including hostile events; a test checks decryption right after encryption", "anchors": ["keyhive_core/src/keyhive.rs: receive_cgka_op, receive_delegation, try_decrypt_content, ingest_unsorted_static_events", "keyhive_core/src/principal/document.rs: try_decrypt_content, merge_cgka_op", "beekem/src/cgka.rs: decryption_key_for, merge_concurrent_operation"]}
{"id": "C84", "title": "An invited device can use the key it was invited with", "statement": "When a device accepts the operation that adds it to a document's key tree, it knows the secret of the prekey it was added with, takes part in the tree under its own name and holds the secret there. An operation that adds the public individual gives every device the public secret, and leaves the device taking part under its own name.", "quantifier": "every device, every document, every add operation", "why_tests_cant": "every state in which the invitation may arrive, including after other operations and as a concurrent one", "anchors": ["keyhive_core/src/keyhive.rs: receive_cgka_op, merge_cgka_invite_op", "keyhive_core/src/principal/document.rs: merge_cgka_invite_op, reset_cgka_owner"]}
{"id": "C83", "title": "An individual stays an individual", "statement": "An agent whose key never signs a first delegation of a group or document is never taken for a group or a document, stays known once it is known, and is meant as an individual whenever an operation names it.", "quantifier": "every reachable device, every individual, every sequence of receptions and calls", "why_tests_cant": "every sequence of events by other agents, including ones that mix up ids of individuals and groups", "anchors": ["keyhive_core/src/keyhive.rs: receive_delegation, promote_individual_to_group, get_agent, receive_prekey_op, receive_contact_card, ingest_archive, generate_doc"]}
{"id": "C85", "title": "A forged event changes nothing and stands in nobody's way", "statement": "An event whose signature does not verify leaves the device as it was. In particular the genuine first delegation of a group or document, when it is received, makes the group or document known whatever forged events came before.", "quantifier": "every reachable device, every event", "why_tests_cant": "every state and order of arrival of forged and genuine events", "anchors": ["keyhive_core/src/keyhive.rs: receive_static_event, receive_prekey_op, receive_delegation, receive_revocation, receive_cgka_op"]}
{"id": "C86", "title": "Processing what honest devices send always returns", "statement": "In a group whose devices all run the library, every group-key call returns, with success or with an error: none loops for ever and none aborts the program, whatever operations are concurrent and whatever the order in which they arrive.", "quantifier": "every history of calls and deliveries among any number of replicas, every call", "why_tests_cant": "all interleavings of concurrent additions, removals and updates; a test that hits one hangs only for that interleaving", "anchors": ["beekem/src/cgka.rs: replay_ops_graph, apply_epochs, add, remove, update, merge_concurrent_operation", "beekem/src/tree.rs: apply_path, is_valid_path, path_length_for", "beekem/src/treemath.rs: direct_path"]}
{"id": "C87", "title": "What a call records it hands out", "statement": "Every group-key operation that adding a member, revoking a member, forcing a key update or encrypting records on the device is among the operations the call returns (and gives to the listener), so that the other members can be told of it; nothing recorded earlier is lost; the same holds when the call fails.", "quantifier": "every reachable device, every such call with every argument, every outcome of the call", "why_tests_cant": "a call makes operations for every document behind the group; an operation that is recorded but not handed out is noticed only when another device fails to decrypt", "anchors": ["keyhive_core/src/keyhive.rs: add_member, revoke_member, force_pcs_update, try_encrypt_content", "keyhive_core/src/principal/document.rs: add_cgka_member, remove_cgka_member, pcs_update, try_encrypt_content", "keyhive_core/src/principal/group.rs: add_member, revoke_member"]}
{"id": "C88", "title": "A member can replace its key at any time", "statement": "A device that is a member of the group can always make a key update: the call succeeds, and its result gives the device's own leaf the new key (or, for a device that takes part only through the public member, the public member's leaf); encrypting when the group has no current secret makes such an update and succeeds.", "quantifier": "every history of calls and deliveries among any number of replicas, every member, every new key", "why_tests_cant": "success depends on the state of every node on the path after any concurrency", "anchors": ["beekem/src/cgka.rs: update, new_app_secret_for", "beekem/src/tree.rs: encrypt_path, node_key_for_id"]}
{"id": "C89", "title": "An agent is sent the prekeys of everyone it shares a group with", "statement": "The events that the library selects for an agent contain all prekey operations the device has of itself, of that agent, and of every individual that is, directly or through groups, in a group or document in which the agent is.", "quantifier": "every reachable device, every agent, every nesting of groups, every prekey operation", "why_tests_cant": "the selection walks nested groups and sorts the operations of each individual; an operation that is lost in the sort is missed only by devices that need that key", "anchors": ["keyhive_core/src/keyhive.rs: reachable_prekey_ops_for_agent, events_for_agent", "keyhive_core/src/principal/individual/state.rs: topsort_keys"]}
{"id": "C90", "title": "A device knows only what its keys give it", "statement": "The group secrets a device uses to encrypt and to decrypt, and all secrets it stores, can be worked out from the secrets it was given or drew itself with the help of the ciphertexts in the operations it holds; content under any other secret does not open for it, whatever it is sent.", "quantifier": "every history of calls and receptions, including forged and malformed operations, every content", "why_tests_cant": "a statement about everything an adversary may send and every state it may lead to", "anchors": ["beekem/src/cgka.rs: decryption_key_for, new_app_secret_for, pcs_key_from_hashes", "beekem/src/tree.rs: decrypt_tree_secret, encrypt_path", "beekem/src/secret_store.rs: decrypt_secret"]}
{"id": "C91", "title": "What it was made with decides whether it is a group or a document", "statement": "A document made with some initial content is taken for a document, with this content as its initial heads, by every device that learns of it, in whatever order things arrive; a group is never taken for a document; neither ever changes.", "quantifier": "every reachable device, every group and document, every sequence of receptions and calls", "why_tests_cant": "the kind is worked out by each device from the first delegation it happens to see", "anchors": ["keyhive_core/src/keyhive.rs: receive_delegation, generate_doc, generate_group, register_group", "keyhive_core/src/principal/group.rs: generate", "keyhive_core/src/principal/document.rs: generate, from_group"]}
{"id": "C92", "title": "Membership operations name the content their author knows", "statement": "Adding a member names the current heads of the documents concerned, and revoking one names the current heads of all documents the author can reach, so that readers can tell what had been written when access changed.", "quantifier": "every reachable device, every such call with every argument", "why_tests_cant": "every history of writing and membership changes and every set of reachable documents; wrong or missing heads show only when a revoked writer goes on writing", "anchors": ["keyhive_core/src/keyhive.rs: add_member, revoke_member, reachable_docs", "keyhive_core/src/principal/document.rs: add_member, revoke_member, content_heads, content_state", "keyhive_core/src/principal/group.rs: add_member"]}
{"id": "C93", "title": "A transaction on a device is all or nothing", "statement": "A transaction that fails leaves no trace on the device. One that commits leaves the device as if the calls had been made on it directly, together with everything that happened on the device meanwhile.", "quantifier": "every reachable device, every list of calls in the transaction, every list of calls made on the device meanwhile, every outcome", "why_tests_cant": "every interleaving of a transaction with other calls and every kind of call inside it; a lost effect shows only when it is used later", "anchors": ["keyhive_core/src/transact.rs: transact_async", "keyhive_core/src/keyhive.rs: ForkAsync::fork_async, MergeAsync::merge_async", "keyhive_core/src/principal/active.rs: merge_async", "keyhive_core/src/listener/log.rs: Log"]}
{"id": "C94", "title": "The statistics are true", "statement": "The numbers of individuals, groups, documents, delegations, revocations, prekey operations and group-key operations that a device reports are those of the things it has; the numbers of pending events are those of the events it could not process; what is counted as active prekeys are the active prekeys; saving and loading changes no number, and nothing the device does makes the number of groups, documents or membership operations smaller.", "quantifier": "every reachable device, every batch of events, every call", "why_tests_cant": "numbers are computed by separate loops over maps that every call changes; a double count shows only in particular histories", "anchors": ["keyhive_core/src/keyhive.rs: stats", "keyhive_core/src/stats.rs: Stats"]}
{"id": "C95", "title": "Operations can be looked up and put together", "statement": "A membership operation found under a digest has this digest, a valid signature, and is one the device holds; every membership operation the device holds is found under its digest for ever; an event put together from the form in which it travels is the event that was sent, and it can be put together exactly when the device knows everything it names.", "quantifier": "every reachable device, every digest, every event, every later call", "why_tests_cant": "every history; two stores are searched one after the other", "anchors": ["keyhive_core/src/keyhive.rs: get_membership_operation, static_event_to_event"]}
{"id": "C96", "title": "Reading gives what was written or says why not", "statement": "Trying to read content changes nothing on the device but which secrets of this document are at hand. What reading gives is the plaintext that was sealed, under a key made for exactly this content and these predecessors; content under a secret the device has is read or refused as tampered with; content under a secret and an operation the device does not have is reported as such.", "quantifier": "every reachable device, every document, every content including tampered", "why_tests_cant": "all histories and all contents including ones no honest device made", "anchors": ["keyhive_core/src/keyhive.rs: try_decrypt_content", "keyhive_core/src/principal/document.rs: try_decrypt_content_keyed", "beekem/src/cgka.rs: decryption_key_for, pcs_key_from_hashes"]}
{"id": "C97", "title": "An event goes by one name", "statement": "The hash under which a device lists an event it is waiting to apply, and the hash under which another device offers the event to an agent, are the same: the hash of the event. So a device can tell from the hashes which of the offered events it already has.", "quantifier": "every device, agent and event", "why_tests_cant": "all states of two devices; no test compares the names of one event in the two tables", "anchors": ["keyhive_core/src/keyhive.rs: static_events_for_agent, pending_event_hashes, membership_ops_for_agent", "keyhive_core/src/event/static_event.rs: StaticEvent", "keyhive_wasm/src/js/keyhive.rs: eventsForAgent, eventHashesForAgent, pendingEventHashes"]}
{"id": "C98", "title": "The tables of all agents lead to the events of each agent", "statement": "The tables of all events and of the sources of each agent are closed: every hash listed for a source is in the table of events, under its own name. Starting from an agent and following its sources one gets to exactly the events that are selected for this agent when asked for it alone; the list of its event hashes names exactly these.", "quantifier": "every reachable device and every agent", "why_tests_cant": "all histories of the device and all agents", "anchors": ["keyhive_wasm/src/js/keyhive.rs: allAgentEvents, eventsForAgent, eventHashesForAgent", "keyhive_wasm/src/js/all_agent_events.rs: AllAgentEvents", "keyhive_core/src/keyhive.rs: membership_ops_for_all_agents, reachable_prekey_ops_for_all_agents, cgka_ops_for_all_agents"]}
{"id": "C99", "title": "Asking who has access to a document", "statement": "Asking for an agent's access to a document gives one exactly when the agent is a member of it, directly or through groups, and it is the access granted along the best path. The list of members with their capabilities has exactly the individuals among these, each once and with the same access. The best access is the larger of the agent's own and what everyone may do.", "quantifier": "every reachable device, document and agent", "why_tests_cant": "all membership graphs and histories", "anchors": ["keyhive_wasm/src/js/keyhive.rs: accessForDoc, bestAccessForDoc, docMemberCapabilities", "keyhive_core/src/principal/group.rs: transitive_members"]}
{"id": "C100", "title": "Asking who was revoked from a document", "statement": "The list of revoked members of a document has exactly the individuals that had access to it and have none any more because of a revocation, with the most they could do. Nobody is both in this list and among the members.", "quantifier": "every reachable device and document", "why_tests_cant": "all histories of delegations and revocations, in all orders", "anchors": ["keyhive_wasm/src/js/keyhive.rs: revokedMembersForDoc", "keyhive_core/src/principal/group.rs: revoked_members"]}
{"id": "C101", "title": "Importing prekey secrets", "statement": "After importing the prekey secrets that another device of the same agent exported, the device holds all of them and all it held before, every event that was pending for want of one of them is applied, and everything else is as before. A secret is held only under the public key it belongs to.", "quantifier": "every reachable device, every set of pending events, every imported map and every order of retrying", "why_tests_cant": "all histories that lead to pending invitations, all maps", "anchors": ["keyhive_core/src/keyhive.rs: export_prekey_secrets, import_prekey_secrets, ingest_unsorted_static_events, receive_cgka_op", "keyhive_core/src/principal/active.rs: export_prekey_secrets, import_prekey_secrets"]}
{"id": "C102", "title": "Registering peers", "statement": "Registering an individual, a group, a document or any peer succeeds exactly if nobody is known under its id, and it is then found under that id as it was given. Nothing that is known is ever replaced or changed by it, and only properly signed operations get on record.", "quantifier": "every reachable device, every peer and every delegation", "why_tests_cant": "all histories and all peers, including delegations about other groups", "anchors": ["keyhive_core/src/keyhive.rs: register_peer, register_individual, register_group, get_peer", "keyhive_core/src/principal/group/state.rs: GroupState::new"]}
{"id": "C103", "title": "Asking what new events make readable", "statement": "Given new events, the answer names exactly the documents that have a key-agreement operation among them, and lists for each the ciphertexts that the store keeps encrypted under one of these operations, and no others. It fails only if the store fails.", "quantifier": "every list of events, every store and every history of the in-memory store", "why_tests_cant": "all histories of insertions and removals, and stores whose contents are not under the library's control", "anchors": ["keyhive_core/src/event.rs: Event::now_decryptable", "keyhive_core/src/store/ciphertext.rs: get_by_pcs_update", "keyhive_wasm/src/js/ciphertext_store.rs: get_ciphertext_by_pcs_update"]}
{"id": "C104", "title": "A ciphertext store kept in a browser", "statement": "Looking up a content reference gives the ciphertext kept for it and nothing else; marking it as decrypted takes away exactly this one; asking by key-agreement operation gives exactly the ciphertexts kept under that operation; causal decryption with this store ends, reports everything that can be reached, and takes out of the store exactly what it reported. Other texts in the same storage are no obstacle.", "quantifier": "every contents of the browser's storage, every reference, every start of a decryption", "why_tests_cant": "the storage is shared with everything else the page keeps there", "anchors": ["keyhive_wasm/src/js/ciphertext_store.rs: get_ciphertext, get_ciphertext_by_pcs_update, mark_decrypted", "keyhive_core/src/store/ciphertext.rs: try_causal_decrypt"]}
{"id": "C105", "title": "Ingesting serialised events", "statement": "A batch of serialised events with one that cannot be decoded changes nothing and says so; any other batch has the effect of ingesting the events it encodes. What is handed back as still pending encodes exactly the pending events, in their order, byte for byte as they were given.", "quantifier": "every reachable device, every batch of byte strings, every order of retrying, every encoding that can be decoded", "why_tests_cant": "all batches, orders and encodings, including ones with more than one byte string for the same event", "anchors": ["keyhive_wasm/src/js/keyhive.rs: ingestEventsBytes"]}
{"id": "C106", "title": "Printed identifiers can be told apart", "statement": "The printed form of an identifier consists of two hexadecimal digits for each byte, can be read back, and is different for different identifiers; so is its short form.", "quantifier": "every two byte strings", "why_tests_cant": "all pairs of byte strings, including ones with leading zero digits", "anchors": ["keyhive_crypto/src/hex.rs: bytes_to_hex_string, bytes_as_hex", "keyhive_wasm/src/js/keyhive.rs: idString", "keyhive_core/src/debug_events/hash.rs: Hash::short_hex"]}
{"id": "C107", "title": "Comparing signed values and naming them by digest", "statement": "The digest of a signed value is that of its payload, issuer and signature, whatever was done with it before. Equality is an equivalence compatible with hashing, the order is a total order compatible with equality, and values that are equal have the same contents.", "quantifier": "every signed value and every way of making it, every three values", "why_tests_cant": "all ways of making, copying and changing a value before it is compared", "anchors": ["keyhive_crypto/src/signed.rs: Signed::digest, PartialEq, Hash, Ord, map, clone"]}
{"id": "C108", "title": "Making a group or document with others", "statement": "Whoever a group or a document is made with is known to the device afterwards, as they were given if it did not know them before, and as before if it did; so the device can save and load what it made. The members of what was made are the device and these others, all of them admins.", "quantifier": "every device, every list of others known or not, every signer", "why_tests_cant": "all devices and all mixtures of known and unknown individuals, groups and documents", "anchors": ["keyhive_core/src/keyhive.rs: generate_doc, generate_group, register_peer", "keyhive_core/src/principal/peer.rs: Peer", "keyhive_core/src/principal/group.rs: Group::generate"]}
{"id": "C109", "title": "The table of events for debugging", "statement": "The table has a row for each event, in order, which tells its place, its kind, who signed it, its digest and what it says; it counts the events of each kind. A key or digest is shown by the nickname given for it last, and otherwise in short hex. The row of a delegation or revocation tells the group it is about.", "quantifier": "every list of events, every choice of nicknames, every revocation a group accepts", "why_tests_cant": "all lists of events, including revocations accepted with proofs about other groups", "anchors": ["keyhive_core/src/debug_events.rs: DebugEventTable::from_events, DebugEventRow::from_event, Nicknames", "keyhive_core/src/debug_events/hash.rs: Hash"]}
{"id": "C110", "title": "A signature stands for one statement", "statement": "A prekey, rotation of prekeys, delegation, revocation or group-key operation that verifies under a user's key is one that the user signed as such: a signature made for another statement, of the same kind or another, or for a message of the application, does not verify for it.", "quantifier": "every set of statements and messages a user has signed, every statement presented", "why_tests_cant": "all pairs of statements of all sizes; tests compare a few encodings", "anchors": ["keyhive_crypto/src/signed.rs: Signed::try_verify", "keyhive_crypto/src/signer/async_signer.rs: try_sign_async", "keyhive_crypto/src/signer/memory.rs: try_sign_sync", "keyhive_wasm/src/js/keyhive.rs: JsKeyhive::try_sign", "keyhive_wasm/src/js/signer.rs: JsSigner::try_sign", "keyhive_core/src/principal/group/delegation.rs: StaticDelegation", "keyhive_core/src/principal/group/revocation.rs: StaticRevocation", "keyhive_core/src/principal/individual/op/rotate_key.rs: RotateKeyOp", "beekem/src/operation.rs: CgkaOperation"]}
{"id": "C111", "title": "Anyone can read what is written in public", "statement": "Whatever is written in a document while the public individual is a member of its key group can be read by every device that has received the document's operations, also by one whose owner was never given access, then and at any later time.", "quantifier": "every device and everything it has done, every group history with concurrent key updates, every content", "why_tests_cant": "needs all histories and all devices that are not members; tests read as one invited member", "anchors": ["keyhive_core/src/cgka.rs: insert_public_sks, new, new_from_init_add, with_new_owner", "keyhive_core/src/principal/public.rs: share_secret_key, share_key", "beekem/src/cgka.rs: pcs_key_from_tree_root, decryption_key_for", "keyhive_core/src/principal/document.rs: try_decrypt_content", "keyhive_core/src/keyhive.rs: receive_cgka_op, try_decrypt_content"]}
{"id": "C112", "title": "Listeners hear of everything the device takes in", "statement": "Every delegation, revocation and group-key operation that a device comes to hold through a call, be it its own or one that receives something, is reported to its event listener by that call, and no delegation or revocation is reported that the device refuses.", "quantifier": "every device and everything it has done, every call with every argument and outcome", "why_tests_cant": "a listener test looks at one call; the claim is about every call in every state, including failing and nested ones", "anchors": ["keyhive_core/src/listener/membership.rs: MembershipListener", "keyhive_core/src/listener/cgka.rs: CgkaListener", "keyhive_core/src/principal/group.rs: receive_delegation, receive_revocation, add_member, revoke_member, new, from_individual", "keyhive_core/src/keyhive.rs: receive_delegation, receive_revocation, receive_cgka_op", "keyhive_core/src/listener/log.rs: Log"]}
{"id": "C113", "title": "Members can read as long as they are members", "statement": "Whatever is written in a document can be read by every member of its key group whose device has received the document's group-key operations: however the member came by its place in the group, its device has kept the secret that goes with it.", "quantifier": "every device that is the only one of its agent and everything it has done, all other devices running the library, every group history with concurrent key updates, every content", "why_tests_cant": "needs all histories of invitations, creations, updates, losses and changes of ownership; tests read right after one invitation", "anchors": ["keyhive_core/src/keyhive.rs: receive_cgka_op, try_encrypt_content, try_decrypt_content", "keyhive_core/src/principal/document.rs: generate, merge_cgka_invite_op, reset_cgka_owner, merge_cgka_op", "keyhive_core/src/cgka.rs: with_new_owner", "beekem/src/cgka.rs: update, new_app_secret_for, decryption_key_for"]}
{"id": "C114", "title": "Only members write and replace keys", "statement": "A device can encrypt for a document, or replace keys of its group, only on behalf of its own agent or, in a public document, of the public individual, and only while that one is in the document's key group. Otherwise the calls fail and leave nothing on record; so an agent that may only relay a document, or was removed from it, can neither come to read it nor keep members from reading by calling the library.", "quantifier": "every device that is the only one of its agent and everything it has done, all other devices running the library, every document, content and moment of the call", "why_tests_cant": "needs all ways a device comes by a replica of a group (creation, invitation, operations received without one) and its later changes of ownership; tests write only as members", "anchors": ["keyhive_core/src/keyhive.rs: receive_cgka_op, force_pcs_update, try_encrypt_content", "keyhive_core/src/principal/document.rs: merge_cgka_op, merge_cgka_invite_op, pcs_update, try_encrypt_content", "beekem/src/cgka.rs: update, new_app_secret_for, new_from_init_add"]}
{"id": "C115", "title": "A refused event changes nothing", "statement": "When receiving an event (a prekey, delegation, revocation or group-key operation) returns an error, the device is as it was before: it knows the same individuals, groups and documents with the same members, has the same delegations, revocations and group-key operations on record and holds at least the same secrets. The event can thus be tried again later as if it had never come.", "quantifier": "every device and everything it has done, every event, genuine or not, and every reason to refuse it", "why_tests_cant": "needs every event in every state, with all partial effects before the error; tests check that the error is returned", "anchors": ["keyhive_core/src/keyhive.rs: receive_static_event, receive_delegation, receive_revocation, receive_cgka_op, receive_prekey_op, promote_individual_to_group", "keyhive_core/src/principal/document.rs: merge_cgka_op, merge_cgka_invite_op", "beekem/src/cgka.rs: merge_concurrent_operation"]}
{"id": "C116", "title": "A contact card is enough to reach its owner", "statement": "Whoever receives only a contact card of an agent invites them with the key on the card, to whatever document, and the agent can open the invitation then and at any later time. A new card can always be made; its key is used for nobody else. A card handed out again is as good as a new one.", "quantifier": "every agent and everything it has done before and after making the card, every receiver and what it has received of the agent, every document and hash", "why_tests_cant": "needs all histories of rotations before and after the card, and all partial views a receiver may have of them; tests exchange one card of a new agent", "anchors": ["keyhive_core/src/principal/active.rs: generate_private_prekey, rotate_prekey", "keyhive_core/src/principal/individual.rs: contact_card, pick_prekey, new", "keyhive_core/src/keyhive.rs: contact_card, get_existing_contact_card, receive_contact_card", "keyhive_core/src/contact_card.rs: ContactCard"]}
{"id": "C117", "title": "The error of a refused event says whether to wait", "statement": "If an event is refused, `is_missing_dependency` of the error is true exactly if the event would be taken in once more has been received, that is, if something it builds on is missing; for a forged event it is never true.", "quantifier": "every reachable device, every event, every state of what it has received", "why_tests_cant": "needs every error path of receiving, including those inside the replay of a key tree of any size, against every partial history; tests look at one or two errors", "anchors": ["keyhive_core/src/keyhive.rs: ReceiveStaticEventError::is_missing_dependency, ReceiveStaticDelegationError::is_missing_dependency, ReceiveCgkaOpError::is_missing_dependency, receive_static_event", "beekem/src/error.rs: CgkaError::is_missing_dependency", "keyhive_core/src/principal/document.rs: merge_cgka_op, merge_cgka_invite_op"]}
{"id": "C118", "title": "The reported hash of the group key names the key in use", "statement": "`try_pcs_key_hash` gives the same answer on all members' devices that have the same key operations of a document; if it gives a hash, what the device writes next is encrypted under the key with this hash unless the write makes a new key; if a member was added or removed since the last key update, it gives none.", "quantifier": "every two devices that run the library, every document and every history of its key operations", "why_tests_cant": "needs every history of key operations, including those made at the same time on several devices, and all orders of delivery; tests ask two devices after one update", "anchors": ["keyhive_core/src/keyhive.rs: try_pcs_key_hash", "keyhive_core/src/cgka.rs: try_pcs_key_hash", "beekem/src/cgka.rs: pcs_key_from_tree_root", "keyhive_wasm/src/js/keyhive.rs: tryPcsKeyHash"]}
{"id": "C119", "title": "A revocation counts exactly if the authority it rests on stands", "statement": "When a group works out its members, an accepted revocation takes effect if it was issued by the group key or if the delegation it names as proof stands, that is, neither it nor one above it has been revoked; a revocation that rests on a delegation that has been revoked, or that never was about the group, takes no effect.", "quantifier": "every reachable group, every revocation it holds, and every set of delegations and revocations received with it in any order", "why_tests_cant": "which revocations count is decided anew over the whole history at every change, so it depends on every set of operations and on the order in which they are replayed; tests revoke one member and look at that member", "anchors": ["keyhive_core/src/principal/group.rs: Group::rebuild", "keyhive_core/src/principal/group.rs: receive_revocation", "keyhive_core/src/principal/group.rs: revoke_member", "keyhive_core/src/principal/group/state.rs: add_revocation"]}
{"id": "C120", "title": "A document's key history is handed over in an order in which another device can take it", "statement": "The list of group-key operations a device returns for a document holds every operation it has recorded for the document, once, and each one after the operations it builds on. A device that knows the document and is given the list from its first to its last element accepts every operation, whether it had some of them already or not, and afterwards has exactly the operations the first device had.", "quantifier": "all devices that run the library, all documents, all histories of the two devices and of what was exchanged between them, all operations already held by the receiver", "why_tests_cant": "The order is computed by a topological sort of an arbitrary graph of operations; whether each element is accepted depends on the state left by all elements before it and by what the receiver had before. A test compares one list.", "anchors": ["keyhive_core/src/keyhive.rs: Keyhive::cgka_ops_for_doc, Keyhive::receive_cgka_op", "keyhive_core/src/principal/document.rs: Document::cgka_ops, Document::merge_cgka_op, Document::merge_cgka_invite_op", "beekem/src/operation.rs: CgkaOperationGraph::topsort_graph", "beekem/src/cgka.rs: Cgka::ops, Cgka::merge_concurrent_operation"]}
{"id": "C121", "title": "Revoking somebody from a document shuts them out of what is written afterwards", "statement": "When a member is revoked from a document, the operations handed back remove from the key group everybody who is no longer behind a member, each after everything the device had recorded. What the revoking device then writes, and what any other device writes that has received these operations, cannot be read with the secrets of somebody so removed, even with everybody's operations and ciphertexts.", "quantifier": "all documents, members and devices that run the library, all histories and orders of delivery, all content written", "why_tests_cant": "Writes after a revocation and what other devices had received by then can be interleaved in unboundedly many ways, and a test can only show that one attempt at reading failed, not that the secrets suffice for none.", "anchors": ["keyhive_core/src/principal/document.rs Document::revoke_member, try_encrypt_content, try_decrypt_content", "beekem/src/cgka.rs Cgka::remove, new_app_secret_for", "keyhive_core/src/keyhive.rs revoke_member, try_encrypt_content, receive_revocation"]}
{"id": "C122", "title": "Adding somebody to a document lets them read what is written afterwards", "statement": "When a member is added to a document with access that includes reading, the operations handed back add to the key group everybody who is now behind a member, each after everything the device had recorded. What the adding device then writes, and what any other device writes that knows of the new member, every device so added can read once it has received the key operations the writer had.", "quantifier": "all documents, members and devices that run the library, all histories and orders of delivery, all content written", "why_tests_cant": "Whether the next write renews the group key, and whether the newcomer's device can open it, depends on the whole history of the key group and on what each device had received.", "anchors": ["keyhive_core/src/principal/document.rs Document::add_member, try_encrypt_content, try_decrypt_content", "beekem/src/cgka.rs Cgka::add, has_pcs_key, new_app_secret_for", "keyhive_core/src/keyhive.rs add_member, receive_delegation"]}
{"id": "C123", "title": "A change in a group takes effect in what is written in the documents the group can read", "statement": "When a member is revoked from a group, every document whose key group thereby loses somebody gets removals, each after everything the device had recorded of the document, and those removed cannot read what is then written in it. When a member is added, every document whose key group gains somebody gets additions, and those added can read what is then written in it. The same holds when the member is revoked from or added to a document that is itself a member of other documents.", "quantifier": "all groups, all documents at once, all members and devices that run the library, all histories and orders of delivery, all content written", "why_tests_cant": "The effect has to hold in every document the group is behind, and whether a write is readable depends on the whole history of that document's key group.", "anchors": ["keyhive_core/src/keyhive.rs: Keyhive::add_member, Keyhive::revoke_member, docs_reachable_by_agent", "keyhive_core/src/principal/document.rs: add_cgka_members_from_prekeys, remove_cgka_member", "beekem/src/cgka.rs: add, remove, new_app_secret_for"]}
{"id": "C124", "title": "Whoever a revocation leaves without access cannot read what is written afterwards", "statement": "After a member is revoked from a document, or from a group that is a member of the document, nobody who is left without the right to read the document by it – as somebody behind the revoked member, or because their own access rested on the membership of the revoked one – can read what the revoking device writes in it from then on, whatever group-key operations reach them.", "quantifier": "all documents, groups nested in them, members, devices that run the library, histories and orders of delivery, all content written", "why_tests_cant": "Membership and key group are changed by different code, and whether they agree, and whether the keys are really out of reach, depends on the whole membership graph and key history.", "anchors": ["keyhive_core/src/keyhive.rs: Keyhive::revoke_member", "keyhive_core/src/principal/document.rs: revoke_member, remove_cgka_member", "keyhive_core/src/principal/group.rs: individual_ids, transitive_members", "beekem/src/cgka.rs: remove, new_app_secret_for"]}
{"id": "C125", "title": "Whoever is given the right to read can read what is written afterwards", "statement": "After a member is given access that includes reading a document, or is added to a group that is a member of the document, every individual behind the new member can read what the adding device then writes in the document, once their device has the group-key operations the writer has. The same holds when the member is added to a document whose readers are readers of the document.", "quantifier": "all documents, groups and documents nested in them, members, devices that run the library, histories and orders of delivery, all content written", "why_tests_cant": "Membership and key group are changed by different code, and whether everybody who gains the right to read also gains the keys depends on the whole membership graph and key history.", "anchors": ["keyhive_core/src/keyhive.rs: Keyhive::add_member", "keyhive_core/src/principal/document.rs: add_member, add_cgka_members_from_prekeys, try_encrypt_content, try_decrypt_content", "keyhive_core/src/principal/group.rs: transitive_members", "beekem/src/cgka.rs: add, has_pcs_key, new_app_secret_for"]}
{"id": "C126", "title": "Members can write at any time", "statement": "A device that is in the key group of a document can at any moment write in the document and replace its key there, whatever it has received and in whatever order; in a public document every device can. Both calls succeed, and a key update concerns the device's own place, or that of the public individual.", "quantifier": "all devices that run the library and are the only one of their agent, documents, histories and orders of delivery, contents and random values", "why_tests_cant": "Whether the call succeeds depends on the secrets the device holds and on every key in the tree after any history of concurrent updates; a test writes from a few states only.", "anchors": ["keyhive_core/src/keyhive.rs: try_encrypt_content, force_pcs_update", "keyhive_core/src/principal/document.rs: try_encrypt_content, pcs_update", "beekem/src/cgka.rs: new_app_secret_for, update, has_pcs_key, pcs_key_from_tree_root", "beekem/src/tree.rs: encrypt_path, decrypt_tree_secret"]}
{"id": "C127", "title": "One device brings another up to date in one call", "statement": "A device that is sent, in one call, in any order and mixed with any other events, the group-key operations that another device has for a document has afterwards exactly those operations for the document; none of them is left over, and the device reads what was written with them.", "quantifier": "all pairs of devices that run the library, documents, histories, batches of events with repetitions, orders, and earlier leftovers", "why_tests_cant": "The batch is processed in passes whose order is that of a hash map, with failed events tried again; whether the last pass leaves something depends on every dependency among all the events, and tests run a few orders.", "anchors": ["keyhive_core/src/keyhive.rs: ingest_unsorted_static_events, receive_static_event, receive_cgka_op, cgka_ops_for_doc", "keyhive_core/src/principal/document.rs: merge_cgka_op, merge_cgka_invite_op, try_decrypt_content", "beekem/src/cgka.rs: merge_concurrent_operation, replay_ops_graph"]}
{"id": "C128", "title": "Asking a group for the revocations of an agent", "statement": "Asked for the revocations of an agent, a group or document gives exactly the revocations in its own history that take back a delegation to this agent.", "quantifier": "all devices and their histories, groups, documents and agents", "why_tests_cant": "All groups of a device share one store of revocations; what a group gives depends on everything received for every other group, and tests look at one group.", "anchors": ["keyhive_core/src/principal/membered.rs: Membered::get_agent_revocations", "keyhive_core/src/principal/group.rs: Group::get_agent_revocations", "keyhive_core/src/principal/document.rs: Document::get_agent_revocations", "keyhive_core/src/store/revocation.rs: get_revocations_for_agent"]}
{"id": "C129", "title": "Adding several members in one call", "statement": "Adding several individuals to the group of a key tree in one call makes each of them a member and keeps the others, records one addition for each that was not a member, and hands back exactly what it records, in an order in which others can take it; a call that fails records nothing.", "quantifier": "all states of a group, lists of individuals and keys with repetitions, signers that may fail", "why_tests_cant": "The additions are made one by one and each may fail or replay operations received earlier; the outcome depends on what is waiting and where the failure is, and no test covers the call.", "anchors": ["beekem/src/cgka.rs: Cgka::add_multiple, Cgka::add", "keyhive_core/src/cgka.rs: Cgka::add_multiple"]}
{"id": "C130", "title": "The key handed out with content", "statement": "The key handed out when content is written is the one handed to everybody who reads it. It opens that content, and no content with another reference, other predecessors or another group secret. Asking for the key changes nothing about what is written.", "quantifier": "all devices and states, documents, contents, references, predecessors, and all other content ever written anywhere", "why_tests_cant": "The reader derives the key anew from its own key tree, possibly by replaying the history; that it is the writer's key for every history, and opens nothing else, is a statement about all pairs of devices and all contents.", "anchors": ["keyhive_core/src/keyhive.rs: try_encrypt_content_keyed, try_decrypt_content_keyed", "keyhive_core/src/principal/document.rs: try_encrypt_content_keyed, try_decrypt_content_keyed", "beekem/src/pcs_key.rs: derive_application_secret"]}
{"id": "C131", "title": "An archive is written with a fresh secret", "statement": "Content written as an archive is sealed with a group secret made for it, so that the keys of content written before do not give it away.", "quantifier": "all devices and states, documents, contents, references and predecessors", "why_tests_cant": "Whether the secret is new depends on the state of the key tree, that is on the whole history of the document.", "anchors": ["keyhive_wasm/src/js/keyhive.rs: try_encrypt_archive (tryEncryptArchive)", "keyhive_core/src/keyhive.rs: try_encrypt_content"]}
{"id": "C132", "title": "A call that fails changes nothing", "statement": "When making a group, making a document, adding a member, writing or replacing a key returns an error, the device is as it was: it knows the same individuals, groups and documents with the same members, and has the same delegations, revocations, waiting events, secrets and group-key operations on record.", "quantifier": "every device, every call with every argument, every signer and every way of failing", "why_tests_cant": "A call fails for many reasons (a key tree that has not come, a missing proof, a signer that refuses, somebody without prekeys), at different points, in every state of the device.", "anchors": ["keyhive_core/src/keyhive.rs: generate_group", "keyhive_core/src/keyhive.rs: generate_doc", "keyhive_core/src/keyhive.rs: add_member", "keyhive_core/src/keyhive.rs: try_encrypt_content", "keyhive_core/src/keyhive.rs: force_pcs_update", "keyhive_core/src/principal/document.rs: add_member"]}
{"id": "C133", "title": "Receiving an event again changes nothing", "statement": "An event that a device has taken in can be received again, at once or at any later time, from anybody: the call succeeds and the device, and what it does afterwards, is as if the event had come once.", "quantifier": "every device and history, every event of every kind, every sequence of calls between the two receipts", "why_tests_cant": "Devices send each other what they already have, at any time and in any state; no finite set of runs covers the states in which an event comes back.", "anchors": ["keyhive_core/src/keyhive.rs: receive_static_event, receive_delegation, receive_revocation, receive_cgka_op, receive_prekey_op", "keyhive_core/src/principal/document.rs: merge_cgka_op, merge_cgka_invite_op, reset_cgka_owner", "beekem/src/cgka.rs: merge_concurrent_operation"]}
{"id": "C134", "title": "Only editors write", "statement": "Content that one device writes in a document and another device accepts was written by somebody who, as far as these devices know, may edit the document. Somebody who may only read it cannot change it: their attempt to write fails, or nobody accepts what they wrote.", "quantifier": "every two devices that run the library, every history of calls and deliveries, every document and membership in it", "why_tests_cant": "the access of the writer would have to be looked at in every state the document can be in; the tests write with the owner of a document only", "anchors": ["keyhive_core/src/access.rs: Access::Edit", "keyhive_core/src/keyhive.rs: try_encrypt_content, try_decrypt_content, force_pcs_update", "keyhive_core/src/principal/document.rs: try_encrypt_content_keyed, try_decrypt_content_keyed"]}
{"id": "C135", "title": "Groups that are members of each other are one group", "statement": "If two groups are members of each other, directly or through other groups, then whoever is a member of one is a member of the other: both list the same members with the same access, and giving one of them access to a document lets in the same individuals as giving it to the other. In general a group lists everybody whom a group below it lists.", "quantifier": "every world of groups and documents, every two groups reached from each other, every member", "why_tests_cant": "cycles of any length and shape; a test builds a few of them", "anchors": ["keyhive_core/src/principal/group.rs: transitive_members", "keyhive_core/src/principal/agent.rs: individual_ids", "keyhive_core/src/principal/membered.rs: transitive_members"]}
{"id": "C136", "title": "Somebody who was taken out can be taken in again", "statement": "An agent that was removed from a group can be added again. What adds them comes after their removal in the causal order, and once the call has succeeded they are a member with the access asked for.", "quantifier": "every reachable group, every agent removed from it any number of times, every history of additions and removals in between", "why_tests_cant": "whether the removal still counts depends on everything done between it and the second addition", "anchors": ["keyhive_core/src/principal/group.rs: add_member_with_manual_content, revoke_member", "keyhive_core/src/principal/group/state.rs: add_delegation, add_revocation"]}
{"id": "C137", "title": "Whoever has access can pass it on", "statement": "Whoever has access to a group or document, as a member or through a group that is a member, can add anybody with at most that access. Nothing that happens elsewhere takes this away from them while they have the access.", "quantifier": "every reachable group, every member, direct or through groups, every access up to their own, every state of the other groups", "why_tests_cant": "depends on how the chain of each member came about and on the present members of every group in it", "anchors": ["keyhive_core/src/principal/group.rs: add_member_with_manual_content, get_capability", "keyhive_core/src/principal/group/state.rs: add_delegation"]}
{"id": "C138", "title": "Members who revoke each other at the same time", "statement": "If two members of a group revoke each other at the same time, the one whose authority is closer to the group key stays and the other one goes, on every device. Nobody can improve their position by making delegations.", "quantifier": "every reachable group, every pair of revocations that do not know of each other, every depth of the two members", "why_tests_cant": "the outcome depends on the whole history of both members, and on digests in case of a tie", "anchors": ["keyhive_core/src/principal/group/membership_operation.rs: reverse_topsort", "keyhive_core/src/principal/group.rs: rebuild"]}
{"id": "C139", "title": "Ingesting at the same time", "statement": "If several batches of events are ingested at the same time, nothing is lost: every event given to any of the calls, and every event that was pending, is applied, or dropped as a refused prekey event, or stays pending, however the calls take turns.", "quantifier": "every device state, every number of calls, every batch, every schedule of their steps", "why_tests_cant": "which interleaving happens is up to the scheduler; a test sees a few of them", "anchors": ["keyhive_core/src/keyhive.rs: ingest_unsorted_static_events, receive_static_event"]}
{"id": "C140", "title": "Groups do not mix", "statement": "Who is a member of a group, and with what access, is decided by delegations and revocations about this group. What is signed in other groups makes nobody a member of it.", "quantifier": "every reachable group, every operation it accepts, whatever revocations the operation names", "why_tests_cant": "an attacker chooses which revocations a delegation claims to come after; the history behind them can be anything that was accepted anywhere", "anchors": ["keyhive_core/src/principal/group.rs: receive_delegation, rebuild", "keyhive_core/src/principal/group/state.rs: add_delegation", "keyhive_core/src/keyhive.rs: receive_delegation, static_delegation_to_delegation"]}
{"id": "C141", "title": "Saving a device while it is in use", "statement": "A device can be saved while it is receiving events: the archive can be loaded, and what the device had accepted or kept pending when the saving began is in it, applied or pending.", "quantifier": "every device state, every event received between any two steps of the saving", "why_tests_cant": "at which of its steps the saving is interrupted is up to the scheduler", "anchors": ["keyhive_core/src/keyhive.rs: into_archive, try_from_archive"]}
{"id": "C142", "title": "Receiving two delegations at the same time", "statement": "If two delegations are received at the same time, the device ends up as if one had been received after the other.", "quantifier": "every device state, every pair of delegations, every interleaving of the two calls", "why_tests_cant": "the window between looking for the group and making it is short, and which call goes first is up to the scheduler", "anchors": ["keyhive_core/src/keyhive.rs: receive_delegation"]}
{"id": "C143", "title": "Giving up a call on the prekeys", "statement": "If a call that rotates or adds a prekey, or makes a contact card, is dropped at any point where it waits, the secret of every prekey that others can see is known, no secret is lost, and a rotation that is not complete is not seen.", "quantifier": "every sequence of calls on the active agent, every point at which each of them is dropped", "why_tests_cant": "a call is dropped by whoever runs it, at any point where it waits for a lock; a test would have to stop it at each of them", "anchors": ["keyhive_core/src/principal/active.rs: rotate_prekey, expand_prekeys, generate_private_prekey", "keyhive_core/src/keyhive.rs: rotate_prekey, expand_prekeys, contact_card"]}
{"id": "C144", "title": "Giving up the revocation of a member of a group", "statement": "If revoking a member from a group is dropped at any point where it waits for a document, calling it again completes it: whoever was revoked cannot read what is written afterwards in the documents the group may read.", "quantifier": "every device state, every group and member, every document at which the call is given up", "why_tests_cant": "the call is dropped by whoever runs it, or the process ends, at any of the documents; a test would have to stop it at each of them", "anchors": ["keyhive_core/src/keyhive.rs: revoke_member", "keyhive_core/src/principal/document.rs: remove_cgka_member"]}
{"id": "C145", "title": "Giving up adding a member to a group", "statement": "If adding a member to a group is dropped at any point where it waits for a document, calling it again completes it: the individuals behind the member are in the key groups of all documents the group is a member of, and nobody else has come into them.", "quantifier": "every device state, every group and agent, every document at which the call is given up", "why_tests_cant": "the call is dropped by whoever runs it, or the process ends, at any of the documents; a test would have to stop it at each of them", "anchors": ["keyhive_core/src/keyhive.rs: add_member", "keyhive_core/src/principal/document.rs: add_cgka_members_from_prekeys"]}
{"id": "C146", "title": "Giving up an ingestion", "statement": "If ingesting events is dropped between two events, the events that were waiting are still waiting, and when the same events are ingested again, each of them and each that was waiting has been accepted, or dropped as a refused prekey event, or is waiting.", "quantifier": "every device, every batch of events, every iteration order, every number of turns after which the call is dropped", "why_tests_cant": "the call can be dropped after any event of any batch", "anchors": ["keyhive_core/src/keyhive.rs: ingest_unsorted_static_events"]}
{"id": "C147", "title": "Calls do not wait for each other forever", "statement": "However many calls run at the same time on a device, and in whatever order they get their turns, there is never a point at which all that have not returned wait for each other: all of them can still return.", "quantifier": "every membership of groups and documents in each other, every number of calls with whatever arguments, every schedule", "why_tests_cant": "a deadlock needs two calls to be interrupted at particular places, and the schedules of calls are innumerable", "anchors": ["keyhive_core/src/keyhive.rs: add_member, revoke_member, reachable_docs, reachable_members, docs_reachable_by_agent, membered_reachable_by_agent, try_encrypt_content_keyed, receive_cgka_op, receive_delegation, generate_doc, generate_group, contact_card, rotate_prekey, expand_prekeys", "keyhive_core/src/principal/document.rs: generate, add_member, revoke_member", "keyhive_core/src/principal/group.rs: add_member, transitive_members", "keyhive_core/src/principal/agent.rs: pick_individual_prekeys, individual_ids"]}
