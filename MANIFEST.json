{
 "claims": [
  {
   "property": "C01",
   "status": "proved",
   "theorems": [
    "Verif.TreeMath.C01_parent_child",
    "Verif.TreeMath.C01_children",
    "Verif.TreeMath.C01_sizes"
   ],
   "note": ""
  },
  {
   "property": "C02",
   "status": "proved",
   "theorems": [
    "Verif.TreeMath.C02_direct_path",
    "Verif.TreeMath.C02_direct_path_any"
   ],
   "note": ""
  },
  {
   "property": "C03",
   "status": "proved",
   "theorems": [
    "Verif.TreeMath.C03_meet"
   ],
   "note": ""
  },
  {
   "property": "C04",
   "status": "partial",
   "theorems": [
    "Verif.BeeKem.Props.C04_members_exact",
    "Verif.BeeKem.Props.C04_no_wild_access",
    "Verif.BeeKem.Props.C04_add_remove_succeed",
    "Verif.BeeKem.Props.Sample.C04_fails_for_hostile_paths"
   ],
   "note": "Bookkeeping is proved for every history. The last clause (no access outside the tree) is proved for path changes whose positions are inside the tree and refuted for arbitrary received ones."
  },
  {
   "property": "C05",
   "status": "proved",
   "theorems": [
    "Verif.BeeKem.Props.C05_membership_change_retires_root",
    "Verif.BeeKem.Props.C05_no_root_key_no_secret"
   ],
   "note": ""
  },
  {
   "property": "C06",
   "status": "partial",
   "theorems": [
    "Verif.BeeKem.Props.C06_update_reaches_everyone_partial",
    "Verif.BeeKem.NetProps.C06_concurrent_update_partial",
    "Verif.BeeKem.NetProps.C06_concurrent_delivery",
    "Verif.BeeKem.NetProps.C06_concurrent_secret",
    "Verif.BeeKem.NetProps.C06_concurrent_agree",
    "Verif.BeeKem.Props.Sample.C06_fails_for_conflicting_leaf"
   ],
   "note": "Proved for every run without concurrency, and for updates that different members make concurrently and receive in any causal order, with membership changes while no update is under way; a member that updates twice concurrently leaves a conflicting leaf, and the next update panics (witness)."
  },
  {
   "property": "C07",
   "status": "partial",
   "theorems": [
    "Verif.BeeKem.Props.C07_removed_member_cut_off_partial",
    "Verif.Cgka.CutOffProps.C07_C08_outdated_keys_partial",
    "Verif.Cgka.CutOffProps.C07_removed_device_cannot_read_partial",
    "Verif.Cgka.SecrecyProps.C07_fails_with_concurrent_operations",
    "Verif.Keyhive.HeldProps.C07_devices_partial"
   ],
   "note": "Symbolic (Dolev-Yao) cryptography; proved for single trees, and on replicas and devices for writers in whose history members may update their keys at the same time but are added and removed while nobody does anything else, whatever others do concurrently. With concurrent additions or removals it is false (C07_fails_with_concurrent_operations, C10_fails_for_concurrent_adds). C07_devices_partial states it for whole devices that all run the library (decryptContent fails)."
  },
  {
   "property": "C08",
   "status": "partial",
   "theorems": [
    "Verif.BeeKem.Props.C08_update_heals_partial",
    "Verif.Cgka.CutOffProps.C07_C08_outdated_keys_partial",
    "Verif.Cgka.CutOffProps.C08_stolen_keys_cannot_read_partial",
    "Verif.Cgka.SecrecyProps.C08_fails_with_concurrent_operations",
    "Verif.Keyhive.HeldProps.C08_devices_partial"
   ],
   "note": "Symbolic cryptography; proved for single trees, and on replicas and devices for writers in whose history members may update their keys at the same time but are added and removed while nobody does anything else, whatever others do concurrently. With concurrent additions or removals it is false (C08_fails_with_concurrent_operations). C08_devices_partial states it for whole devices that all run the library (decryptContent fails)."
  },
  {
   "property": "C09",
   "status": "proved",
   "theorems": [
    "Verif.BeeKem.Props.C09_merge_exact",
    "Verif.BeeKem.Props.C09_merge_order_independent",
    "Verif.BeeKem.Props.C09_stores_exact",
    "Verif.BeeKem.Props.C09_every_key_opens"
   ],
   "note": ""
  },
  {
   "property": "C10",
   "status": "partial",
   "theorems": [
    "Verif.BeeKem.Props.C10_remove_removes_all_leaves_partial",
    "Verif.BeeKem.Props.C10_fails_for_concurrent_adds"
   ],
   "note": "False of the code when the same identity is added concurrently (witness, with the removed member still deriving the new root secret); proved otherwise."
  },
  {
   "property": "C100",
   "status": "partial",
   "theorems": [
    "Verif.Keyhive.AccessProps.C100_listed",
    "Verif.Keyhive.AccessProps.C100_complete_partial",
    "Verif.Keyhive.AccessProps.C100_fails"
   ],
   "note": "Proved: the listed are not direct members, the access is the largest revoked, and nobody whose own delegation was revoked is missing. False: someone with access through a group is listed, and someone who lost access when another was revoked is not (witnesses)."
  },
  {
   "property": "C101",
   "status": "partial",
   "theorems": [
    "Verif.Keyhive.SecretsProps.C101_secrets",
    "Verif.Keyhive.SecretsProps.C101_moved",
    "Verif.Keyhive.SecretsProps.C101_reach",
    "Verif.Keyhive.SecretsProps.C101_keeps",
    "Verif.Keyhive.SecretsProps.C101_retried",
    "Verif.Keyhive.SecretsProps.C101_no_longer_lacking",
    "Verif.Keyhive.SecretsProps.C101_stays",
    "Verif.Keyhive.SecretsProps.C101_invited_partial",
    "Verif.Keyhive.SecretsProps.C101_fails"
   ],
   "note": "Proved: which secrets are held afterwards, nothing on record is lost, every pending event is tried again and applied or reported, none of them fails for want of an imported secret, and exactly the invitations without secret keep waiting. That an invitation is then merged is proved when it is the only pending event and the tree need not be rebuilt. False: nothing checks that a secret belongs to its public key (witness)."
  },
  {
   "property": "C102",
   "status": "partial",
   "theorems": [
    "Verif.Keyhive.RegisterProps.C102_peer",
    "Verif.Keyhive.RegisterProps.C102_peer_found",
    "Verif.Keyhive.RegisterProps.C102_peer_rest",
    "Verif.Keyhive.RegisterProps.C102_individual",
    "Verif.Keyhive.RegisterProps.C102_individual_known",
    "Verif.Keyhive.RegisterProps.C102_group",
    "Verif.Keyhive.RegisterProps.C102_group_made",
    "Verif.Keyhive.RegisterProps.C102_group_partial",
    "Verif.Keyhive.RegisterProps.C102_rounds",
    "Verif.Keyhive.RegisterProps.C102_fails"
   ],
   "note": "Proved for peers and individuals, and for groups when the delegation is by the group itself. False for register_group: it looks for the subject of the delegation but inserts under its issuer, so a known group is replaced by one without members; it checks no signature and no other kind of agent (witnesses)."
  },
  {
   "property": "C103",
   "status": "partial",
   "theorems": [
    "Verif.Cipher.WebProps.C103_error",
    "Verif.Cipher.WebProps.C103_documents",
    "Verif.Cipher.WebProps.C103_listed",
    "Verif.Cipher.WebProps.C103_memory_partial",
    "Verif.Cipher.WebProps.C103_fails"
   ],
   "note": "Proved relative to what the store says about each operation; for the in-memory store nothing is missing, and nothing of other operations is listed unless a content was encrypted under two. False then, and for the store kept in a browser, which lists everything it keeps for every operation (witnesses)."
  },
  {
   "property": "C104",
   "status": "partial",
   "theorems": [
    "Verif.Cipher.WebProps.C104_reference",
    "Verif.Cipher.WebProps.C104_marked",
    "Verif.Cipher.WebProps.C104_update",
    "Verif.Cipher.WebProps.C104_decrypt",
    "Verif.Cipher.WebProps.C104_fails"
   ],
   "note": "Lookups, marking and causal decryption are proved when nothing else is kept in the storage. False: asking by operation gives every ciphertext whatever the operation, another text makes it fail, and with another text under a reference's name causal decryption need not end (witnesses). Names are injective."
  },
  {
   "property": "C105",
   "status": "proved",
   "theorems": [
    "Verif.Keyhive.BytesProps.C105_undecodable",
    "Verif.Keyhive.BytesProps.C105_ingests",
    "Verif.Keyhive.BytesProps.C105_handed_back",
    "Verif.Keyhive.BytesProps.C105_as_given"
   ],
   "note": "Event digests are collision-free and what was encoded decodes to the same. If an event was given several times, the last bytes are handed back."
  },
  {
   "property": "C106",
   "status": "partial",
   "theorems": [
    "Verif.Hex.Props.C106_printed",
    "Verif.Hex.Props.C106_distinct",
    "Verif.Hex.Props.C106_short_partial",
    "Verif.Hex.Props.C106_short_whole",
    "Verif.Hex.Props.C106_fails"
   ],
   "note": "Proved for the full form; the short form keeps the first three bytes and the last two, so it is not unique (witness)."
  },
  {
   "property": "C107",
   "status": "partial",
   "theorems": [
    "Verif.Signed.Props.C107_digest",
    "Verif.Signed.Props.C107_fields",
    "Verif.Signed.Props.C107_equality",
    "Verif.Signed.Props.C107_order",
    "Verif.Signed.Props.C107_verified_partial",
    "Verif.Signed.Props.C107_fails"
   ],
   "note": "The digest, the equivalence and the order are proved; equality agrees with the order and the contents for values whose signatures verify. False otherwise: equality leaves out the payload, so a tampered copy equals the original; and the kept digest survives an assignment to the payload (witnesses)."
  },
  {
   "property": "C108",
   "status": "partial",
   "theorems": [
    "Verif.Keyhive.CoparentsProps.C108_doc_known",
    "Verif.Keyhive.CoparentsProps.C108_doc_kept",
    "Verif.Keyhive.CoparentsProps.C108_doc_given",
    "Verif.Keyhive.CoparentsProps.C108_doc_delegates",
    "Verif.Keyhive.CoparentsProps.C108_doc_founders",
    "Verif.Keyhive.CoparentsProps.C108_group_founders",
    "Verif.Keyhive.CoparentsProps.C108_fails"
   ],
   "note": "Proved for documents, and for groups as to their members. False for groups otherwise: others the device does not know are not registered, and an archive made then cannot be loaded (witness)."
  },
  {
   "property": "C109",
   "status": "partial",
   "theorems": [
    "Verif.Keyhive.DebugProps.C109_rows",
    "Verif.Keyhive.DebugProps.C109_counts",
    "Verif.Keyhive.DebugProps.C109_nicknames",
    "Verif.Keyhive.DebugProps.C109_subject_partial",
    "Verif.Keyhive.DebugProps.C109_fails"
   ],
   "note": "Proved except for the group shown in rows of revocations: that of the proof is shown, which need not be the group that accepts the revocation (witness). Printing to the terminal is not modelled."
  },
  {
   "property": "C11",
   "status": "proved",
   "theorems": [
    "Verif.Cgka.Props.C11_unknown_past_refused",
    "Verif.Cgka.Props.C11_known_changes_nothing",
    "Verif.Cgka.Props.C11_applied_once",
    "Verif.Cgka.Props.C11_past_known"
   ],
   "note": ""
  },
  {
   "property": "C110",
   "status": "partial",
   "theorems": [
    "Verif.Wire.C110_partial",
    "Verif.Wire.C110_message",
    "Verif.Wire.C110_fails"
   ],
   "note": "Proved for keyhive's own statements and for messages of other lengths than 24 and 56 bytes, as long as no digest comes out like the beginning of another statement. False for messages of these lengths: a signed message of 56 bytes is a rotation of prekeys to a key of the attacker's choice (witness, for every key). That signatures cannot be forged is a hypothesis; the byte formats of bincode and of the key types are taken from their documentation."
  },
  {
   "property": "C111",
   "status": "partial",
   "theorems": [
    "Verif.Keyhive.PublicProps.C111_secret_at_hand",
    "Verif.Keyhive.PublicProps.C111_public_document_partial",
    "Verif.Keyhive.FleetProps.C111_devices_partial",
    "Verif.Cgka.PublicProps.C111_public_content_partial",
    "Verif.Cgka.SecrecyProps.C80_fails_with_concurrent_operations"
   ],
   "note": "Proved that every document of every device holds the public secret, and that every device then reads what is written, under the conditions of C80: nothing is concurrent with an addition or a removal, and the header names the writer's last operation. Missing: operations concurrent with additions and removals, for which already members fail to read (C80_fails_with_concurrent_operations)."
  },
  {
   "property": "C112",
   "status": "partial",
   "theorems": [
    "Verif.Keyhive.ReportProps.C112_own_partial",
    "Verif.Keyhive.ReportProps.C112_revocations_partial",
    "Verif.Keyhive.ReportProps.C112_key_ops_partial",
    "Verif.Keyhive.ReportProps.C112_delegation_partial",
    "Verif.Keyhive.ReportProps.C112_fails",
    "Verif.Keyhive.ReportProps.C112_refused_fails"
   ],
   "note": "Own calls: delegations and revocations reported are exactly those that are new (C112_own_partial). Every revocation and, for calls that succeed, every group-key operation taken in is reported, also when received. Fails for delegations to known groups received from others, which are not reported (C112_fails), and for refused revocations, which are (C112_refused_fails)."
  },
  {
   "property": "C113",
   "status": "partial",
   "theorems": [
    "Verif.Keyhive.PlaceProps.C113_holds_partial",
    "Verif.Keyhive.PlaceProps.C113_reads_partial",
    "Verif.Keyhive.PlaceProps.C113_fails"
   ],
   "note": "Proved for members that got their place by creating the document, by being added by somebody else or by their own key updates, under the conditions of C80 (nothing concurrent with additions and removals). False for the creator of a document once somebody else has added the public individual and removed it again: the creator's device then acts for a leaf whose secret it did not put among the document's keys (witness)."
  },
  {
   "property": "C114",
   "status": "partial",
   "theorems": [
    "Verif.Keyhive.WriterProps.C114_own_leaf_partial",
    "Verif.Keyhive.WriterProps.C114_removed_partial",
    "Verif.Keyhive.WriterProps.C114_refuses",
    "Verif.Keyhive.WriterProps.C114_fails"
   ],
   "note": "Proved for devices whose agent was added to the group by somebody else: their key updates are for their agent or the public individual, who is in the group, and once neither is, writing and updating fail and record nothing. False for devices that have the group-key operations without having been added: they act for the document's own leaf, so a relay can replace its keys, read what is written after that, and keep the creator from reading (witness)."
  },
  {
   "property": "C115",
   "status": "partial",
   "theorems": [
    "Verif.Keyhive.RefuseProps.C115_refused_partial",
    "Verif.Keyhive.RefuseProps.C115_individuals_partial",
    "Verif.Keyhive.RefuseProps.C115_fails"
   ],
   "note": "Proved for all events but two kinds. Missing: a forged prekey in the name of a stranger is refused but makes the stranger known (C41_fails, C85_fails); a revocation about what the device takes for an individual removes the individual before it is checked, so a refused one makes the device forget that agent (witness)."
  },
  {
   "property": "C116",
   "status": "partial",
   "theorems": [
    "Verif.Prekey.CardProps.C116_reaches_partial",
    "Verif.Prekey.CardProps.C116_part_partial",
    "Verif.Prekey.CardProps.C116_private_partial",
    "Verif.Prekey.CardProps.C116_made",
    "Verif.Prekey.CardProps.C116_fails"
   ],
   "note": "Proved for the device that made the card: the receiver invites with the card's key and the device holds its secret for ever; whoever has any part of the published operations picks a key the device can open; whoever has all of them does not pick the card's key; with 1 to 15 prekeys a card can be made. False: the key is published and used by those who have not yet received the next operation; a card handed out again can be for a retired key; a validly signed card that rotates a key to itself makes its receiver panic; making a card can panic from 16 prekeys on; other devices of the agent do not have the secret (one witness for all five)."
  },
  {
   "property": "C117",
   "status": "partial",
   "theorems": [
    "Verif.Keyhive.WaitProps.C117_membership",
    "Verif.Keyhive.WaitProps.C117_key_missing_partial",
    "Verif.Keyhive.WaitProps.C117_key_waits_partial",
    "Verif.Keyhive.WaitProps.C117_forged",
    "Verif.Keyhive.WaitProps.C117_fails"
   ],
   "note": "Delegations and revocations: the error says to wait exactly if the event names something the device does not know. Key operations on known documents: refused and told to wait if a predecessor is missing, and only then, with two exceptions. Forged events: never told to wait. False: no hint to wait for key operations of documents not yet known, for invitations with a prekey whose secret comes later, and for delegations whose author's membership in a member group is not yet known; a hint to wait though nothing is missing for the removal of a stranger and for a tree that begins with the device's own agent (one witness for all five)."
  },
  {
   "property": "C118",
   "status": "partial",
   "theorems": [
    "Verif.Keyhive.KeyHashProps.C118_same_partial",
    "Verif.Keyhive.KeyHashProps.C118_given_partial",
    "Verif.Keyhive.KeyHashProps.C118_none_partial",
    "Verif.Keyhive.KeyHashProps.C118_names",
    "Verif.Keyhive.KeyHashProps.C118_fails"
   ],
   "note": "Devices with the same key operations, one of which is the last, do not report different hashes; members who hold the secret of their leaf report one when operations were made in turn and the tree has a root key; none is reported when the last operation adds or removes a member; what is written without an update is under the reported key. False when an addition and a write happen at the same time: two members' devices report the key of the write, which nothing is written under any more, the third, of the new member, reports none."
  },
  {
   "property": "C119",
   "status": "partial",
   "theorems": [
    "Verif.Group.CountProps.C119_valid_counts_partial",
    "Verif.Group.CountProps.C119_root_counts",
    "Verif.Group.CountProps.C119_given_counts",
    "Verif.Group.CountProps.C119_made_up",
    "Verif.Group.CountProps.C119_fails"
   ],
   "note": "Revocations by the group key, and those whose proof stands, take effect. A revocation on a made-up proof, by someone who still has access and never had as much, takes none. False in the other direction: a revocation whose proof has been revoked takes effect whenever whoever gave that delegation is the group key, is not a member, or still has the access, so a removed member goes on removing those they added (witness)."
  },
  {
   "property": "C12",
   "status": "proved",
   "theorems": [
    "Verif.Cgka.Props.C12_same_graph",
    "Verif.Cgka.Props.C12_convergence"
   ],
   "note": "Hypotheses: collision-free digest, one operation without predecessors, signing never failed."
  },
  {
   "property": "C120",
   "status": "partial",
   "theorems": [
    "Verif.Keyhive.TakeProps.C120_order_partial",
    "Verif.Keyhive.TakeProps.C120_taken_partial",
    "Verif.Keyhive.TakeProps.C120_fails"
   ],
   "note": "Proved for documents whose operations descend from one first operation and in which nobody was removed at the same time as something else was done, for receivers that hold the secret of the prekey they were added with. C120_fails: a second operation without predecessors is left out of the list, and a device of an agent without the prekey secret refuses its invitation and everything after it."
  },
  {
   "property": "C121",
   "status": "partial",
   "theorems": [
    "Verif.Keyhive.ShutProps.C121_removal_partial",
    "Verif.Keyhive.ShutProps.C121_shut_out_partial",
    "Verif.Keyhive.ShutProps.C121_next_write_partial",
    "Verif.Keyhive.ShutProps.C121_fails"
   ],
   "note": "Proved for any writer that has the key operations the revocation made, and for the revoking device's next write without that condition, when nothing was waiting to be replayed at the revocation and no operation is concurrent with an addition or removal. C121_fails: a device that has received the revocation itself but not yet the key operation stops counting the person as a member, and yet writes under a key they hold."
  },
  {
   "property": "C122",
   "status": "partial",
   "theorems": [
    "Verif.Keyhive.JoinProps.C122_addition_partial",
    "Verif.Keyhive.JoinProps.C122_next_write_partial",
    "Verif.Keyhive.JoinProps.C122_fails"
   ],
   "note": "Proved for the next write of the device that adds (that it makes a key update, and that the newcomer's device reads it), when nothing was waiting to be replayed and no operation is concurrent with an addition or removal; for other writers that have the key operations see C113. C122_fails: a device that has received the delegation but not yet the key operation counts the newcomer as a member and writes under a key they cannot get."
  },
  {
   "property": "C123",
   "status": "partial",
   "theorems": [
    "Verif.Keyhive.SpreadProps.C123_removal_partial",
    "Verif.Keyhive.SpreadProps.C123_addition_partial",
    "Verif.Keyhive.SpreadProps.C123_shut_out_partial",
    "Verif.Keyhive.SpreadProps.C123_next_write_partial",
    "Verif.Keyhive.SpreadProps.C123_join_write_partial",
    "Verif.Keyhive.SpreadProps.C123_fails"
   ],
   "note": "Proved for every document at once, for the key operations made and for what is written afterwards, when nothing was waiting to be replayed in the document and no operation is concurrent with an addition or removal; who is added and removed is C52. C123_fails: a revocation from a document is not carried over to the documents it is a member of, so the member revoked goes on reading what is written there."
  },
  {
   "property": "C124",
   "status": "partial",
   "theorems": [
    "Verif.Keyhive.LostProps.C124_document_partial",
    "Verif.Keyhive.LostProps.C124_group_partial",
    "Verif.Keyhive.LostProps.C124_fails",
    "Verif.Keyhive.CascadeProps.C124_fails_cascade"
   ],
   "note": "Proved for those behind the revoked member who are left without any access, when nothing was waiting to be replayed at the revocation and no operation is concurrent with an addition or removal. C124_fails: somebody who loses the right to read but may still relay the document through a group stays in the key group and goes on reading. C124_fails_cascade: somebody who drops out of the members because whoever gave them access is revoked stays in the key group and goes on reading."
  },
  {
   "property": "C125",
   "status": "partial",
   "theorems": [
    "Verif.Keyhive.GrantProps.C125_document_partial",
    "Verif.Keyhive.GrantProps.C125_group_partial",
    "Verif.Keyhive.GrantProps.C125_fails"
   ],
   "note": "Proved for documents and for groups nested in them, when nothing was waiting to be replayed at the addition and no operation is concurrent with an addition or removal. C125_fails: somebody added to a document whose readers are readers of another document counts as a reader of the other but gets no key of it."
  },
  {
   "property": "C126",
   "status": "partial",
   "theorems": [
    "Verif.Keyhive.AbleProps.C126_member_partial",
    "Verif.Keyhive.AbleProps.C126_public_partial",
    "Verif.Keyhive.AbleProps.C126_fails"
   ],
   "note": "Proved when no operation is concurrent with an addition or removal and no member updates twice at once, for members that got their place by creating the document, by being added by somebody else or by their own key updates, and for everybody in public documents. C126_fails: the creator of a document who was shifted to another place while the document was public for a time is in the key group and cannot write."
  },
  {
   "property": "C127",
   "status": "partial",
   "theorems": [
    "Verif.Keyhive.SyncProps.C127_batch_partial",
    "Verif.Keyhive.SyncProps.C127_mixed_partial",
    "Verif.Keyhive.SyncProps.C127_reads_partial",
    "Verif.Keyhive.SyncProps.C127_fails"
   ],
   "note": "Proved for devices of one fleet when the tree has one beginning, no removal is concurrent with anything, and the receiving device holds the prekeys it was added with: for a batch of only these operations the call returns and leaves nothing (C127_batch_partial); for a batch with any other events, whenever it returns and the document is known, none of these operations is left over (C127_mixed_partial), and content written with them is read (C127_reads_partial). C127_fails: without the secret of the prekey the operation that adds the agent and everything after it are left over for ever."
  },
  {
   "property": "C128",
   "status": "partial",
   "theorems": [
    "Verif.Keyhive.AskedProps.C128_given_partial",
    "Verif.Keyhive.AskedProps.C128_fails"
   ],
   "note": "Proved: none in the history of the group is missing, each one given is correctly signed and about the agent, and is given once (C128_given_partial). C128_fails: the store is that of the device, so a group from which nobody was ever revoked gives the revocation of an agent from another document."
  },
  {
   "property": "C129",
   "status": "partial",
   "theorems": [
    "Verif.Cgka.ManyProps.C129_members_partial",
    "Verif.Cgka.ManyProps.C129_recorded",
    "Verif.Cgka.ManyProps.C129_failed_partial",
    "Verif.Cgka.ManyProps.C129_fails"
   ],
   "note": "Proved: when nothing received waits to be replayed the members are the previous ones and those named, with one addition for each newcomer (C129_members_partial); always, a successful call hands back exactly what it records, each directly after the one before (C129_recorded); a failed call has recorded the additions before the failure and nothing else (C129_failed_partial). C129_fails: these are not handed back; and with a removal waiting, an individual named is not a member afterwards."
  },
  {
   "property": "C13",
   "status": "proved",
   "theorems": [
    "Verif.Cgka.Props.C13_heads_exact",
    "Verif.Cgka.Props.C13_heads_cover",
    "Verif.Cgka.LaterProps.C13_add_heads"
   ],
   "note": "For every history of calls and deliveries; the merge of forks is C19."
  },
  {
   "property": "C130",
   "status": "proved",
   "theorems": [
    "Verif.Keyhive.KeyedProps.C130_written",
    "Verif.Keyhive.KeyedProps.C130_refused",
    "Verif.Keyhive.KeyedProps.C130_read",
    "Verif.Keyhive.KeyedProps.C130_only"
   ],
   "note": "With symbolic encryption: a ciphertext opens with the key it was sealed with and no other. That the bytes of the key determine group secret, reference and predecessors is C18_key_binds."
  },
  {
   "property": "C131",
   "status": "partial",
   "theorems": [
    "Verif.Keyhive.KeyedProps.C131_new_partial",
    "Verif.Keyhive.KeyedProps.C131_fails"
   ],
   "note": "Proved: when the document has no current group secret a new one is made and the operation that tells the members is handed back; the archive is otherwise written as any content (C131_new_partial). C131_fails: when there is a current secret the archive is written with it, although the comment in the code says that a fresh one is used."
  },
  {
   "property": "C132",
   "status": "partial",
   "theorems": [
    "Verif.Keyhive.FailedProps.C132_new_group",
    "Verif.Keyhive.FailedProps.C132_new_document_partial",
    "Verif.Keyhive.FailedProps.C132_write",
    "Verif.Keyhive.FailedProps.C132_update",
    "Verif.Keyhive.FailedProps.C132_add_to_document_partial",
    "Verif.Keyhive.FailedProps.C132_add_to_group_partial",
    "Verif.Keyhive.FailedProps.C132_add_to_document_limits_partial",
    "Verif.Keyhive.FailedProps.C132_fails"
   ],
   "note": "Proved for making a group, writing and replacing a key. Making a document that fails can leave its founding delegations on record and nothing else. Adding with an access that does not let read changes nothing when it fails; otherwise the delegation can stay although the call fails, and nothing else outside the document changes. C132_fails: adding somebody to a document whose key tree has not come returns an error and makes them a member."
  },
  {
   "property": "C133",
   "status": "partial",
   "theorems": [
    "Verif.Keyhive.AgainProps.C133_delegation",
    "Verif.Keyhive.AgainProps.C133_revocation",
    "Verif.Keyhive.AgainProps.C133_key_op_partial",
    "Verif.Keyhive.AgainProps.C133_key_op_later_partial",
    "Verif.Keyhive.AgainProps.C133_invited_partial",
    "Verif.Keyhive.AgainProps.C133_prekey_partial",
    "Verif.Keyhive.AgainProps.C133_prekey_later_partial",
    "Verif.Keyhive.AgainProps.C133_fails"
   ],
   "note": "Proved for delegations and revocations at any later time, for group-key operations on record that invite neither the device nor the public, and for genuine prekeys received twice in a row: the device is exactly as it was; a prekey received later again changes no active prekey. For invitations of the device or the public: nothing on record changes and no secret is lost. C133_fails: the maker of a document acts in the name of the document's key until it receives its own invitation back, and in its own name from then on."
  },
  {
   "property": "C134",
   "status": "partial",
   "theorems": [
    "Verif.Keyhive.EditorProps.C134_fails",
    "Verif.Keyhive.EditorProps.C134_unchecked",
    "Verif.Keyhive.WriterProps.C114_own_leaf_partial"
   ],
   "note": "False: a reader writes and the owner's device accepts it (witness). Proved for every device: members and their access play no part in writing, reading and replacing keys; what is needed for a key update is a place in the key group (C114). Nobody without the group secret can write, which is C114 and C90."
  },
  {
   "property": "C135",
   "status": "partial",
   "theorems": [
    "Verif.Group.CycleProps.C135_includes",
    "Verif.Group.CycleProps.C135_same_members_partial",
    "Verif.Group.CycleProps.C135_same_individuals",
    "Verif.Group.CycleProps.C135_fails"
   ],
   "note": "Proved for who is listed and for the individuals behind the groups, for all cycles. False for the access that is listed (witness)."
  },
  {
   "property": "C136",
   "status": "partial",
   "theorems": [
    "Verif.Group.ReaddProps.C136_order_partial",
    "Verif.Group.ReaddProps.C136_again_partial",
    "Verif.Group.ReaddProps.C136_fails"
   ],
   "note": "Proved while the removal is still among the revocation heads, that is, while nobody else has been added since. False afterwards (witness)."
  },
  {
   "property": "C137",
   "status": "partial",
   "theorems": [
    "Verif.Group.PassOnProps.C137_key",
    "Verif.Group.PassOnProps.C137_member_partial",
    "Verif.Group.PassOnProps.C137_fails",
    "Verif.Group.PassOnProps.C137_nested_fails"
   ],
   "note": "Proved for the group key and for members whose chain runs through individuals. False for chains through groups and for access through groups (witnesses)."
  },
  {
   "property": "C138",
   "status": "partial",
   "theorems": [
    "Verif.Group.RankProps.C138_deeper",
    "Verif.Group.RankProps.C138_puppets",
    "Verif.Group.RankProps.C138_tie",
    "Verif.Group.RankProps.C138_both",
    "Verif.Group.RankProps.C138_fails",
    "Verif.Group.RankProps.C138_order_fails"
   ],
   "note": "Proved that nobody can improve their position. False that the senior one stays: both revocations always have the same rank, and both members go (proved in general and witnessed)."
  },
  {
   "property": "C139",
   "status": "partial",
   "theorems": [
    "Verif.Keyhive.Props.C139_alone",
    "Verif.Keyhive.Props.C139_handed_back_partial",
    "Verif.Keyhive.Props.C139_at_return",
    "Verif.Keyhive.Props.C139_fails"
   ],
   "note": "Proved for every schedule that each call accounts for every event it took up and hands back what it could not apply, and that a call alone is the ingestion of C36. False that the device remembers what was handed back: the call that returns last overwrites the pending events of the others (witness)."
  },
  {
   "property": "C14",
   "status": "partial",
   "theorems": [
    "Verif.Cgka.Props.C14_replay_order_partial",
    "Verif.Cgka.Props.C14_fails_for_two_roots"
   ],
   "note": "Proved for graphs with one operation without predecessors; refuted when a second one has been received."
  },
  {
   "property": "C140",
   "status": "partial",
   "theorems": [
    "Verif.Group.ForeignProps.C140_add",
    "Verif.Group.ForeignProps.C140_members_partial",
    "Verif.Keyhive.ForeignProps.C140_fails"
   ],
   "note": "Proved if the operations of the group name only operations about the group; delegations made by adding a member do. False in general: a member who may only relay makes somebody admin by naming a revocation of another group (witness on a device)."
  },
  {
   "property": "C141",
   "status": "partial",
   "theorems": [
    "Verif.Keyhive.SaveProps.C141_quiet_partial",
    "Verif.Keyhive.SaveProps.C141_stored_partial",
    "Verif.Keyhive.SaveProps.C141_fails",
    "Verif.Keyhive.SaveProps.C141_lost_fails"
   ],
   "note": "Proved that the operations stored when the saving began are in the archive, and the whole property if nothing changes meanwhile. False otherwise: one delegation received between reading the stores and reading the groups makes the archive useless, and a pending event can be missing from it (witnesses)."
  },
  {
   "property": "C142",
   "status": "partial",
   "theorems": [
    "Verif.Keyhive.RaceProps.C142_halves",
    "Verif.Keyhive.RaceProps.C142_two_groups_partial",
    "Verif.Keyhive.RaceProps.C142_fails"
   ],
   "note": "Proved for the first delegations of two different groups. False for two delegations a group was made with: the second call overwrites the group the first one made, and the lost delegation counts as known (witness). Modelled is the gap between looking for the subject and making the group; in the other branches the locks are held throughout."
  },
  {
   "property": "C143",
   "status": "partial",
   "theorems": [
    "Verif.Prekey.GivenUpProps.C143_whole",
    "Verif.Prekey.GivenUpProps.C143_unseen",
    "Verif.Prekey.GivenUpProps.C143_secrets_kept",
    "Verif.Prekey.GivenUpProps.C143_secret_partial",
    "Verif.Prekey.GivenUpProps.C143_fails"
   ],
   "note": "Proved for rotations and contact cards given up anywhere. False for expand_prekeys, which shows the new prekey before it stores the secret (witness). The call waits there only if somebody else holds the lock on the secrets: a clone or a fork of the active agent."
  },
  {
   "property": "C144",
   "status": "partial",
   "theorems": [
    "Verif.Keyhive.GivenUpProps.C144_whole",
    "Verif.Keyhive.GivenUpProps.C144_members",
    "Verif.Keyhive.GivenUpProps.C144_reached_partial",
    "Verif.Keyhive.GivenUpProps.C144_not_reached",
    "Verif.Keyhive.GivenUpProps.C144_again",
    "Verif.Keyhive.GivenUpProps.C144_fails"
   ],
   "note": "Proved: the membership is that of the complete call, the documents gone through are as after the complete call, the others as before. Calling again changes no document (C144_again), so the statement is false (witness). Modelled is giving up between documents; the operations on the group itself are taken as one step."
  },
  {
   "property": "C145",
   "status": "partial",
   "theorems": [
    "Verif.Keyhive.GivenAddProps.C145_whole",
    "Verif.Keyhive.GivenAddProps.C145_reached_partial",
    "Verif.Keyhive.GivenAddProps.C145_again_partial"
   ],
   "note": "Proved for documents whose key group has no operations waiting to be replayed (as C52), and for a second call that succeeds. Unlike a revocation (C144), adding goes through all documents however often it is called. Modelled is giving up between documents."
  },
  {
   "property": "C146",
   "status": "proved",
   "theorems": [
    "Verif.Keyhive.StopProps.C146_pending",
    "Verif.Keyhive.StopProps.C146_again"
   ],
   "note": "Receiving one event is one step; giving up inside it is not modelled. That the second call returns is not claimed (C36_fails)."
  },
  {
   "property": "C147",
   "status": "partial",
   "theorems": [
    "Verif.Keyhive.Locks.C147_goes_on_partial",
    "Verif.Keyhive.Locks.C147_return_partial",
    "Verif.Keyhive.Locks.C147_bounded",
    "Verif.Keyhive.Locks.C147_alone",
    "Verif.Keyhive.Locks.C147_fails",
    "Verif.Keyhive.Locks.C147_fails_making",
    "Verif.Keyhive.Locks.C147_fails_alone"
   ],
   "note": "A call is the list of the locks it takes and frees, over one fixed membership table. Proved for memberships without cycles and calls that take the locks of the table downwards; devices on which documents and prekeys (or groups) are made at the same time, the calls that go upwards, and cycles have witnesses of deadlock."
  },
  {
   "property": "C15",
   "status": "partial",
   "theorems": [
    "Verif.Cgka.Props.C15_single_head_replays_partial",
    "Verif.Cgka.Props.C15_fails_for_concurrent_removes",
    "Verif.Cgka.ReplayProps.C15_no_concurrent_removal_partial",
    "Verif.Cgka.ReplayProps.C86_fails_concurrent_add_remove"
   ],
   "note": "Proved for a single head, and for any concurrency of additions and updates as long as no removal is concurrent with anything; two concurrent removals of one member make replay fail for good, and an addition concurrent with a removal can make it loop for ever (witnesses)."
  },
  {
   "property": "C16",
   "status": "proved",
   "theorems": [
    "Verif.Cgka.Props.C16_current_secret",
    "Verif.Cgka.Props.C16_not_after_membership_change",
    "Verif.Cgka.Props.C16_not_after_concurrency"
   ],
   "note": ""
  },
  {
   "property": "C17",
   "status": "proved",
   "theorems": [
    "Verif.Cgka.Props.C17_old_content",
    "Verif.Cgka.Props.C17_own_content"
   ],
   "note": ""
  },
  {
   "property": "C18",
   "status": "proved",
   "theorems": [
    "Verif.Cgka.Props.C18_key_binds",
    "Verif.Cgka.Props.C18_round_trip"
   ],
   "note": "Byte encoding of the key derivation input; BLAKE3 collision freedom on the inputs at hand is a hypothesis."
  },
  {
   "property": "C19",
   "status": "partial",
   "theorems": [
    "Verif.Cgka.Props.C19_merge_keeps_everything_partial",
    "Verif.Cgka.LaterProps.C19_heads_cover_partial",
    "Verif.Cgka.LaterProps.C19_add_heads",
    "Verif.Cgka.Props.C19_heads_wrong"
   ],
   "note": "Everything is kept; the heads after a merge are wrong (witness)."
  },
  {
   "property": "C20",
   "status": "partial",
   "theorems": [
    "Verif.Keyhive.Props.C20_only_the_tree_partial",
    "Verif.Keyhive.Props.C20_fails"
   ],
   "note": "Only the named document's key tree changes and only if the signature is valid; the signer's membership is not checked (witness)."
  },
  {
   "property": "C21",
   "status": "partial",
   "theorems": [
    "Verif.Group.Props.C21_accepted_iff_backed",
    "Verif.Group.Props.C21_held_backed_partial",
    "Verif.Group.Props.C21_member_justified_partial",
    "Verif.Group.Props.C21_fails"
   ],
   "note": "A received delegation is accepted exactly when its chain is rooted. Everything held has a chain when operations arrive after what they name; otherwise a revocation smuggles in an unchecked delegation (witness: a stranger becomes admin)."
  },
  {
   "property": "C22",
   "status": "proved",
   "theorems": [
    "Verif.Group.Props.C22_no_escalation",
    "Verif.Group.Props.C22_no_escalation_local"
   ],
   "note": ""
  },
  {
   "property": "C23",
   "status": "proved",
   "theorems": [
    "Verif.Group.Props.C23_other_subject_delegation",
    "Verif.Group.Props.C23_other_subject_revocation",
    "Verif.Group.Props.C23_accepted_subject"
   ],
   "note": ""
  },
  {
   "property": "C24",
   "status": "partial",
   "theorems": [
    "Verif.Group.Props.C24_accepted_iff_grounds_partial",
    "Verif.Group.Props.C24_fails",
    "Verif.Group.Props.C24_foreign_fails"
   ],
   "note": "Exact grounds for acceptance proved; the issuer is not checked when the proof is the revoked delegation or above it, so that a stranger can remove anyone (witness); a proof about an unrelated group is accepted as well (witness)."
  },
  {
   "property": "C25",
   "status": "partial",
   "theorems": [
    "Verif.Group.Props.C25_revoked_not_member_partial",
    "Verif.Group.Props.C25_revoked_above_partial",
    "Verif.Group.Props.C25_fails"
   ],
   "note": "Proved when no delegation is revoked twice; false otherwise (witness)."
  },
  {
   "property": "C26",
   "status": "partial",
   "theorems": [
    "Verif.Group.Props.C26_cascade_partial",
    "Verif.Group.Props.C26_fails"
   ],
   "note": "What keeps a dependent delegation alive is characterised; the cascade as stated does not happen (witness)."
  },
  {
   "property": "C27",
   "status": "partial",
   "theorems": [
    "Verif.Group.Props.C27_order_independent_partial",
    "Verif.Group.Props.C27_fails"
   ],
   "note": "Proved when no delegation is revoked twice and no payload has two signers; replicas diverge otherwise (witness)."
  },
  {
   "property": "C28",
   "status": "partial",
   "theorems": [
    "Verif.Group.Props.C28_causal_partial",
    "Verif.Group.Props.C28_direct_acyclic_partial",
    "Verif.Group.Props.C28_sound_partial",
    "Verif.Group.Props.C28_fails"
   ],
   "note": "Proved for acyclic requirements; a circle through a revocation empties the replay order and the group (witness)."
  },
  {
   "property": "C29",
   "status": "proved",
   "theorems": [
    "Verif.Group.Props.C29_capability_strongest",
    "Verif.Group.Props.C29_capability_iff"
   ],
   "note": ""
  },
  {
   "property": "C30",
   "status": "partial",
   "theorems": [
    "Verif.Group.Props.C30_entitled",
    "Verif.Group.Props.C30_refused",
    "Verif.Group.Props.C30_new_member_partial",
    "Verif.Group.Props.C30_fails"
   ],
   "note": "Entitlement and the reasons for refusals proved; that the new member is a member only when nothing in its chain was ever revoked (witness otherwise)."
  },
  {
   "property": "C31",
   "status": "partial",
   "theorems": [
    "Verif.Group.Props.C31_revoke_removes_partial",
    "Verif.Group.Props.C31_retain_partial",
    "Verif.Keyhive.RevokeProps.C31_device_flag_partial",
    "Verif.Group.Props.C31_unentitled_refused",
    "Verif.Group.Props.C31_fails"
   ],
   "note": "Removal proved for the group key and for the issuer of all the member's delegations, in groups without earlier revocations; admins are refused in general (witness). What is granted again with the retain flag is proved exactly, for groups and for `revoke_member` on a device, except that it can be without effect as in C30_fails."
  },
  {
   "property": "C32",
   "status": "partial",
   "theorems": [
    "Verif.Group.Props.C32_access_bounded_partial",
    "Verif.Group.Props.C32_some_link_partial",
    "Verif.Group.Props.C32_fails"
   ],
   "note": "Proved for one level of nesting; two levels give too much access (witness)."
  },
  {
   "property": "C33",
   "status": "proved",
   "theorems": [
    "Verif.Group.Props.C33_transitive_exact",
    "Verif.Group.Props.C33_individuals_exact"
   ],
   "note": "Sound: member lists as every reachable group has them, signatures unique, ids not shared by different kinds of agents."
  },
  {
   "property": "C34",
   "status": "partial",
   "theorems": [
    "Verif.Group.Props.C34_redelivery_partial",
    "Verif.Group.Props.C34_fails"
   ],
   "note": "Members, revocations and history unchanged when no delegation is revoked twice; heads can change (witness)."
  },
  {
   "property": "C35",
   "status": "proved",
   "theorems": [
    "Verif.Keyhive.Props.C35_forged_refused",
    "Verif.Keyhive.Props.C35_stored_valid"
   ],
   "note": "For every state reached through received events and local calls. Hypothesis: collision-free digests."
  },
  {
   "property": "C36",
   "status": "partial",
   "theorems": [
    "Verif.Keyhive.Props.C36_rounds",
    "Verif.Keyhive.Props.C36_every_event_partial",
    "Verif.Keyhive.Props.C36_fails"
   ],
   "note": "The loop is bounded and nothing is lost when it returns; two signed events can make it wait for itself (witness). That pending events still fail is proved for delegations and revocations."
  },
  {
   "property": "C37",
   "status": "partial",
   "theorems": [
    "Verif.Keyhive.AgreeProps.C37_complete_partial",
    "Verif.Keyhive.Props.C37_fails",
    "Verif.Keyhive.AgreeProps.C37_kind_fails"
   ],
   "note": "Proved for the members of every group when nothing is left over in either order and no two operations can be confused. False when memberships of nested groups change, and for whether a new id is a group or a document (witnesses)."
  },
  {
   "property": "C38",
   "status": "partial",
   "theorems": [
    "Verif.Keyhive.ArchiveProps.C38_round_trip_partial",
    "Verif.Keyhive.ArchiveProps.C38_fails"
   ],
   "note": "Proved for acyclic histories in which every delegate is known as one kind of agent: everything but the list of revocations in effect survives. Otherwise loading can be refused for good (witnesses). Document key caches and the serialised form are not modelled."
  },
  {
   "property": "C39",
   "status": "partial",
   "theorems": [
    "Verif.Keyhive.QueryProps.C39_closed_partial",
    "Verif.Keyhive.QueryProps.C39_digests_partial",
    "Verif.Keyhive.QueryProps.C39_held",
    "Verif.Keyhive.QueryProps.C39_fails"
   ],
   "note": "The selection is closed under references and holds nothing foreign. It cannot always be applied: keys of agents that were taken out and documents that are members are not selected (witnesses)."
  },
  {
   "property": "C40",
   "status": "proved",
   "theorems": [
    "Verif.Prekey.Props.C40_active_iff",
    "Verif.Prekey.Props.C40_order_independent",
    "Verif.Prekey.Props.C40_merge_laws"
   ],
   "note": "Hypothesis: collision-free digest."
  },
  {
   "property": "C41",
   "status": "partial",
   "theorems": [
    "Verif.Prekey.Props.C41_fails",
    "Verif.Prekey.Props.C41_signed_partial",
    "Verif.Prekey.Props.C41_known_unchanged_partial",
    "Verif.Prekey.Props.C41_register_known_partial"
   ],
   "note": "The first operation about an agent is never verified (witness); everything after it is."
  },
  {
   "property": "C42",
   "status": "partial",
   "theorems": [
    "Verif.Prekey.Props.C42_fails",
    "Verif.Prekey.Props.C42_panic_iff",
    "Verif.Prekey.Props.C42_panic_small_iff",
    "Verif.Prekey.Props.C42_picked_active_partial",
    "Verif.Prekey.OrderProps.C42_order_fails",
    "Verif.Prekey.OrderProps.C42_deterministic_iff"
   ],
   "note": "A picked key is active; exactly for which numbers of active prekeys picking can panic is proved for every number (and spelled out for up to 255); the choice depends on the iteration order of the prekeys unless there is only one (proved as an equivalence)."
  },
  {
   "property": "C43",
   "status": "partial",
   "theorems": [
    "Verif.Prekey.Props.C43_fails",
    "Verif.Prekey.Props.C43_nonempty_partial",
    "Verif.Prekey.Props.C43_count_partial"
   ],
   "note": "False for rotations that lead back and for operations received out of order (witnesses)."
  },
  {
   "property": "C44",
   "status": "partial",
   "theorems": [
    "Verif.Prekey.Props.C44_fails",
    "Verif.Prekey.Props.C44_dependency_order_partial"
   ],
   "note": "Proved when rotations do not lead back, keys are not introduced twice and every rotated key was introduced; each hypothesis is needed (witnesses)."
  },
  {
   "property": "C45",
   "status": "partial",
   "theorems": [
    "Verif.Cipher.Props.C45_fails",
    "Verif.Cipher.Props.C45_by_reference_partial",
    "Verif.Cipher.Props.C45_by_update_partial",
    "Verif.Cipher.Props.C45_remove_partial",
    "Verif.Cipher.Props.C45_remove_all_partial"
   ],
   "note": "False once a single ciphertext is removed that shares content and update with another, and lookups by update return ciphertexts of other updates (witnesses); proved otherwise. Hypothesis: collision-free digest."
  },
  {
   "property": "C46",
   "status": "partial",
   "theorems": [
    "Verif.Cipher.Props.C46_fails",
    "Verif.Cipher.Props.C46_terminates_sound",
    "Verif.Cipher.Props.C46_complete",
    "Verif.Cipher.Props.C46_any_store_partial",
    "Verif.Cipher.Props.C46_document_partial",
    "Verif.Cipher.Props.C46_memory_store_reliable",
    "Verif.Cipher.Props.C46_marked"
   ],
   "note": "Proved in full for the worklist over a store that does not fail, and the in-memory store does not; for other stores whenever it ends; the entry point of documents drops missing direct ancestors, a failing store can make it run for ever, and reported keys may open nothing (witnesses). Completeness needs that the ciphertexts reached for one reference open to one envelope."
  },
  {
   "property": "C47",
   "status": "proved",
   "theorems": [
    "Verif.Seal.C47_open_seal",
    "Verif.Seal.C47_short_fails",
    "Verif.Seal.C47_open_iff",
    "Verif.Seal.C47_tamper"
   ],
   "note": "AEAD and SIV hash are parameters with the ideal behaviour stated as fields of Aead."
  },
  {
   "property": "C48",
   "status": "proved",
   "theorems": [
    "Verif.C48_total_order",
    "Verif.C48_predicates",
    "Verif.C48_names"
   ],
   "note": ""
  },
  {
   "property": "C49",
   "status": "proved",
   "theorems": [
    "Verif.CaMap.C49_set_semantics",
    "Verif.CaMap.C49_keys_are_hashes",
    "Verif.CaMap.C49_insert_checked",
    "Verif.CaMap.C49_merge_laws"
   ],
   "note": "Collision-free hash is an explicit hypothesis where needed."
  },
  {
   "property": "C50",
   "status": "proved",
   "theorems": [
    "Verif.Transact.C50_failure_atomic",
    "Verif.Transact.C50_set_success",
    "Verif.Transact.C50_map_success",
    "Verif.Transact.C50_interleaving"
   ],
   "note": ""
  },
  {
   "property": "C51",
   "status": "proved",
   "theorems": [
    "Verif.RevocationStore.C51_index",
    "Verif.RevocationStore.C51_stored"
   ],
   "note": ""
  },
  {
   "property": "C52",
   "status": "partial",
   "theorems": [
    "Verif.Keyhive.KeyTreeProps.C52_add_to_document_partial",
    "Verif.Keyhive.KeyTreeProps.C52_revoke_from_document_partial",
    "Verif.Keyhive.KeyTreeProps.C52_add_to_group_partial",
    "Verif.Keyhive.KeyTreeProps.C52_revoke_from_group_partial",
    "Verif.Keyhive.LostProps.C52_revoke_from_group_lost_partial",
    "Verif.Keyhive.KeyTreeProps.C52_new_document_partial",
    "Verif.Keyhive.KeyTreeProps.C52_fails"
   ],
   "note": "Proved when no received group-key operation waits to be replayed; a group that may only relay a document still puts its reading members into the key tree (witness)."
  },
  {
   "property": "C53",
   "status": "partial",
   "theorems": [
    "Verif.Keyhive.Props.C53_fails"
   ],
   "note": "False, always: the agent is forgotten."
  },
  {
   "property": "C54",
   "status": "partial",
   "theorems": [
    "Verif.Keyhive.Props.C54_known_group_partial",
    "Verif.Keyhive.Props.C54_fails",
    "Verif.Keyhive.Props.C54_unknown_fails"
   ],
   "note": "Proved for known groups and documents; otherwise the revocation reaches no group or the call hangs (witnesses)."
  },
  {
   "property": "C55",
   "status": "partial",
   "theorems": [
    "Verif.Listener.C55_exactly_once",
    "Verif.Listener.C55_names_swapped",
    "Verif.Listener.C55_fifo_by_popLatest_partial",
    "Verif.Listener.C55_lifo_by_popEarliest_partial",
    "Verif.Listener.C55_log_history",
    "Verif.Listener.C55_log_pop"
   ],
   "note": "Exactly-once holds; the earliest/latest part is false of the code (pop_earliest pops the newest event, C55_names_swapped)."
  },
  {
   "property": "C56",
   "status": "partial",
   "theorems": [
    "Verif.Keyhive.QueryProps.C56_group_keys",
    "Verif.Keyhive.QueryProps.C56_membership_partial",
    "Verif.Keyhive.QueryProps.C56_prekeys_partial",
    "Verif.Keyhive.QueryProps.C56_fails"
   ],
   "note": "Group-key operations agree in every reachable state. Membership operations differ when a group was revoked or a revocation has a delegation to a group in its past; prekeys differ for agents that are in no group and not registered (witnesses)."
  },
  {
   "property": "C57",
   "status": "partial",
   "theorems": [
    "Verif.Prekey.Props.C57_fails",
    "Verif.Prekey.Props.C57_events_partial"
   ],
   "note": "Events never change the public individual; contact cards do (witness)."
  },
  {
   "property": "C58",
   "status": "proved",
   "theorems": [
    "Verif.Cgka.SecrecyProps.C58_no_access_before_join",
    "Verif.Cgka.GainProps.C58_newcomer_cannot_read",
    "Verif.BeeKem.Props.C58_no_access_before_join_partial",
    "Verif.Keyhive.HeldProps.C58_devices"
   ],
   "note": "Symbolic cryptography, random node keys assumed distinct (FreshKeys). For all histories of a group whose replicas run the library, with any concurrency; the _partial theorem is the older one for single trees without concurrency. C58_devices states it for whole devices that all run the library (decryptContent fails)."
  },
  {
   "property": "C59",
   "status": "partial",
   "theorems": [
    "Verif.Keyhive.QueryProps.C59_documents",
    "Verif.Keyhive.QueryProps.C59_groups",
    "Verif.Keyhive.QueryProps.C59_access_partial",
    "Verif.Keyhive.QueryProps.C59_fails"
   ],
   "note": "Exactly the documents and groups are proved; the access can be lower than the agent's own (witness) and is bounded by a path only without deeper nesting."
  },
  {
   "property": "C60",
   "status": "partial",
   "theorems": [
    "Verif.Digest.C60_trailing_zero_bytes",
    "Verif.Digest.C60_trailing_zeros_wrong",
    "Verif.Digest.C60_trailing_zeros_overflow",
    "Verif.Digest.C60_trailing_zeros_partial"
   ],
   "note": "Byte count proved; bit count refuted by a witness and proved only for digests whose last non-zero byte is 0xFF<<t."
  },
  {
   "property": "C61",
   "status": "partial",
   "theorems": [
    "Verif.Cgka.Props.C61_failed_call_keeps_operations_partial",
    "Verif.Cgka.Props.C61_failed_signature_diverges"
   ],
   "note": "Operations, heads and secrets are kept; the tree is not when signing fails (witness)."
  },
  {
   "property": "C62",
   "status": "partial",
   "theorems": [
    "Verif.Cgka.Props.C62_incremental_is_replay_partial",
    "Verif.Cgka.DeliveryProps.C62_incremental_is_replay_trusted",
    "Verif.Cgka.Props.C62_fails_after_fork_merge"
   ],
   "note": "Proved when no operation names a redundant predecessor, which holds whenever all replicas run the library and no forks are merged; false after merging a fork (witness)."
  },
  {
   "property": "C63",
   "status": "partial",
   "theorems": [
    "Verif.Cgka.Props.C63_content_names_update_partial",
    "Verif.Cgka.Props.C63_fails_after_forged_content",
    "Verif.Cgka.DeliveryProps.C63_fails_for_readers"
   ],
   "note": "Proved for a secret used for the first time; false after forged content was processed (witness)."
  },
  {
   "property": "C64",
   "status": "partial",
   "theorems": [
    "Verif.Group.Props.C64_no_deadlock_partial",
    "Verif.Group.Props.C64_fails",
    "Verif.Group.Props.C33_transitive_exact"
   ],
   "note": "Group level; two groups that contain each other deadlock on receiving a delegation issued on behalf of one of them."
  },
  {
   "property": "C65",
   "status": "partial",
   "theorems": [
    "Verif.Group.Props.C65_fails",
    "Verif.Group.Props.C65_given_nothing_partial"
   ],
   "note": "False of the code for an agent that once had a delegation (witness); proved for agents that have been given nothing."
  },
  {
   "property": "C66",
   "status": "partial",
   "theorems": [
    "Verif.Group.Props.C66_only_adds_partial",
    "Verif.Group.Props.C66_fails"
   ],
   "note": "Only adds operations it issued; a failure half-way keeps the first revocations (witness)."
  },
  {
   "property": "C67",
   "status": "partial",
   "theorems": [
    "Verif.Group.Props.C67_accepted_kept_partial",
    "Verif.Group.Props.C67_fails"
   ],
   "note": "Proved when no payload is signed by two keys; otherwise the second delegation can be dropped (witness)."
  },
  {
   "property": "C68",
   "status": "partial",
   "theorems": [
    "Verif.Prekey.Props.C68_fails",
    "Verif.Prekey.Props.C68_all_iff",
    "Verif.Prekey.Props.C68_chosen_iff_partial",
    "Verif.Prekey.Props.C68_chosen_small_iff_partial"
   ],
   "note": "False unless the number of active prekeys is a power of 256 (proved as an equivalence); exactly which prekeys can be chosen is proved for every number."
  },
  {
   "property": "C69",
   "status": "partial",
   "theorems": [
    "Verif.Prekey.Props.C69_fails",
    "Verif.Prekey.Props.C69_own_device_partial"
   ],
   "note": "Proved for one device; a second device has advertised prekeys without secrets until they are imported (witness)."
  },
  {
   "property": "C70",
   "status": "partial",
   "theorems": [
    "Verif.Cipher.Props.C70_fails",
    "Verif.Cipher.Props.C70_only_one_partial"
   ],
   "note": "Only the longest ciphertext of a reference is tried (witness)."
  },
  {
   "property": "C71",
   "status": "proved",
   "theorems": [
    "Verif.Cgka.BatchProps.C71_batch_retires_secret"
   ],
   "note": "Hypothesis: collision-free digest."
  },
  {
   "property": "C72",
   "status": "partial",
   "theorems": [
    "Verif.Cgka.BatchProps.C72_members_kept_partial",
    "Verif.Cgka.BatchProps.C72_fails"
   ],
   "note": "False when a new member takes the position of a concurrently removed one: the repair blanks the new member's leaf (witness, with the library's own operations). Proved when the removed positions are vacant."
  },
  {
   "property": "C73",
   "status": "partial",
   "theorems": [
    "Verif.Cgka.LaterProps.C73_rederives_partial",
    "Verif.Cgka.LaterProps.C73_content_partial",
    "Verif.Cgka.Props.C62_fails_after_fork_merge"
   ],
   "note": "Proved for histories with one first operation in which no operation names a redundant predecessor; false after the merge of a fork (witness)."
  },
  {
   "property": "C74",
   "status": "partial",
   "theorems": [
    "Verif.Cgka.MembersProps.C74_add_partial",
    "Verif.Cgka.MembersProps.C74_remove_partial",
    "Verif.Cgka.MembersProps.C74_fails_for_add",
    "Verif.Cgka.MembersProps.C74_fails_for_remove"
   ],
   "note": "Proved when nothing received waits to be replayed; otherwise a call can succeed without effect because membership is looked up before the replay (witnesses)."
  },
  {
   "property": "C75",
   "status": "partial",
   "theorems": [
    "Verif.Keyhive.QueryProps.C75_own_partial",
    "Verif.Keyhive.QueryProps.C75_nested_partial",
    "Verif.Keyhive.QueryProps.C75_own_revocations",
    "Verif.Keyhive.QueryProps.C75_sent",
    "Verif.Keyhive.QueryProps.C75_fails"
   ],
   "note": "Everything about the agent's own groups and the delegations of nested groups is selected; revocations in nested groups are not, and the agent goes on seeing revoked members (witness)."
  },
  {
   "property": "C76",
   "status": "partial",
   "theorems": [
    "Verif.Keyhive.ArchiveProps.C76_carries_on_partial",
    "Verif.Keyhive.ArchiveProps.C76_fails"
   ],
   "note": "Proved for every later sequence of calls and for the query of reachable documents, under the hypotheses of C38, for devices whose own individual is in the list of individuals. False for the others (witness)."
  },
  {
   "property": "C77",
   "status": "partial",
   "theorems": [
    "Verif.Keyhive.ArchiveProps.C77_takes_in_partial",
    "Verif.Keyhive.ArchiveProps.C77_fails"
   ],
   "note": "Operations, individuals and prekey pairs are taken in; key trees and pending events are not, and the archive of another agent changes the device's own prekeys (witnesses)."
  },
  {
   "property": "C78",
   "status": "partial",
   "theorems": [
    "Verif.Keyhive.ArchiveProps.C78_taken_in_authentic_partial",
    "Verif.Keyhive.ArchiveProps.C78_fails"
   ],
   "note": "Proved for taking in; loading checks no signature (witness)."
  },
  {
   "property": "C79",
   "status": "partial",
   "theorems": [
    "Verif.Keyhive.AgreeProps.C79_same_members_partial",
    "Verif.Keyhive.AgreeProps.C79_settled_partial",
    "Verif.Keyhive.AgreeProps.C79_fails"
   ],
   "note": "Proved when every stored operation is in the group it is about, which receiving preserves as long as no group has the id of a known individual. False otherwise (witness)."
  },
  {
   "property": "C80",
   "status": "partial",
   "theorems": [
    "Verif.Cgka.DeliveryProps.C80_content_reaches_members_partial",
    "Verif.Cgka.DeliveryProps.C80_same_group_secret_partial",
    "Verif.Cgka.DeliveryProps.C80_header",
    "Verif.Cgka.TogetherProps.C80_content_with_concurrent_updates_partial",
    "Verif.Cgka.TogetherProps.C80_same_secret_with_concurrent_updates_partial",
    "Verif.Keyhive.FleetProps.C80_devices_partial",
    "Verif.Cgka.SecrecyProps.C80_fails_with_concurrent_operations"
   ],
   "note": "Proved for any number of replicas, any deliveries and every later state of the reader (and, in C80_devices_partial, for encrypting and decrypting on whole devices that all run the library, receiving events from anybody), when different members update their keys at the same time in any way, as long as nothing is concurrent with an addition or a removal. With operations concurrent to an addition it is false (C80_fails_with_concurrent_operations). The header must name the writer's last operation (C63)."
  },
  {
   "property": "C81",
   "status": "partial",
   "theorems": [
    "Verif.Keyhive.KeptProps.C81_all_partial",
    "Verif.Keyhive.KeptProps.C81_only_partial",
    "Verif.Keyhive.KeptProps.C81_order_partial",
    "Verif.Keyhive.KeptProps.C81_fails"
   ],
   "note": "Proved for key trees with one root operation. False with a second one: it is recorded and nobody is told (witness)."
  },
  {
   "property": "C82",
   "status": "partial",
   "theorems": [
    "Verif.Keyhive.KeptProps.C82_recorded",
    "Verif.Keyhive.KeptProps.C82_stays_partial",
    "Verif.Keyhive.KeptProps.C82_ingested_partial",
    "Verif.Keyhive.KeptProps.C82_read_again_partial",
    "Verif.Keyhive.KeptProps.C82_own_content_partial",
    "Verif.Keyhive.KeptProps.C82_fails"
   ],
   "note": "Recording is proved without restriction. That nothing recorded is lost is proved as long as the document's own key signs no delegation with a proof; with such a delegation it is false (witness)."
  },
  {
   "property": "C83",
   "status": "partial",
   "theorems": [
    "Verif.Keyhive.RoleProps.C83_never_group_partial",
    "Verif.Keyhive.RoleProps.C83_stays_known_partial",
    "Verif.Keyhive.RoleProps.C83_resolved_partial",
    "Verif.Keyhive.RoleProps.C83_fails"
   ],
   "note": "Proved for all calls as long as no other agent uses its key both as an individual and as a group, no prekeys arrive in the name of groups, and no call that makes a document fails half-way. False otherwise (witness)."
  },
  {
   "property": "C84",
   "status": "proved",
   "theorems": [
    "Verif.Keyhive.KeptProps.C84_invited",
    "Verif.Keyhive.KeptProps.C84_public"
   ],
   "note": "The prekey of the invitation is not the well-known one of the public individual: that one every document holds anyway."
  },
  {
   "property": "C85",
   "status": "partial",
   "theorems": [
    "Verif.Keyhive.RoleProps.C85_forged_partial",
    "Verif.Keyhive.RoleProps.C85_genuine_partial",
    "Verif.Keyhive.RoleProps.C85_fails"
   ],
   "note": "Proved except for prekeys of agents of which the device has no prekeys yet: those are registered before the signature is checked, and the genuine group is then lost (witness)."
  },
  {
   "property": "C86",
   "status": "partial",
   "theorems": [
    "Verif.Cgka.ReplayProps.C86_returns_partial",
    "Verif.Cgka.ReplayProps.C86_delivery_partial",
    "Verif.Cgka.ReplayProps.C86_fails_concurrent_add_remove"
   ],
   "note": "Proved for replicas that know no removal concurrent with anything: additions succeed, removals succeed or name one of two errors, decryption returns, updates and encryptions return unless a member updated twice concurrently, deliveries are taken in. False in general: with a concurrent removal and addition, an update of the added member makes the rebuild loop for ever (witness). What holds without it is in C04, C15 and C62."
  },
  {
   "property": "C87",
   "status": "partial",
   "theorems": [
    "Verif.Keyhive.HandedProps.C87_encrypt",
    "Verif.Keyhive.HandedProps.C87_update",
    "Verif.Keyhive.HandedProps.C87_add_to_document_partial",
    "Verif.Keyhive.HandedProps.C87_add_to_group_partial",
    "Verif.Keyhive.HandedProps.C87_revoke_from_document_partial",
    "Verif.Keyhive.HandedProps.C87_revoke_from_group_partial",
    "Verif.Keyhive.HandedProps.C87_fails"
   ],
   "note": "Proved for encryptions and updates in general, and for additions and revocations that succeed. False for an addition to a group that fails half-way: what was recorded until then is never handed out (witness)."
  },
  {
   "property": "C88",
   "status": "partial",
   "theorems": [
    "Verif.Cgka.ReplayProps.C88_update_partial",
    "Verif.Cgka.ReplayProps.C88_encrypt_partial",
    "Verif.Cgka.ReplayProps.C88_fails"
   ],
   "note": "Proved for replicas that know no removal concurrent with anything, if no member has updated twice concurrently. False otherwise (witness); see also C15_fails_for_concurrent_removes, C86_fails_concurrent_add_remove and C06_fails_for_conflicting_leaf."
  },
  {
   "property": "C89",
   "status": "partial",
   "theorems": [
    "Verif.Keyhive.QueryProps.C89_prekeys_partial",
    "Verif.Keyhive.QueryProps.C89_fails"
   ],
   "note": "Proved for individuals whose prekey operations can be put in order. False for an individual known from a contact card that replaces a prekey: nothing about its prekeys is sent (witness)."
  },
  {
   "property": "C90",
   "status": "proved",
   "theorems": [
    "Verif.Cgka.GainProps.C90_decrypt",
    "Verif.Cgka.GainProps.C90_encrypt",
    "Verif.Cgka.GainProps.C90_keys",
    "Verif.Cgka.GainProps.C90_stays_closed",
    "Verif.Keyhive.HeldProps.C90_device"
   ],
   "note": "Symbolic cryptography: a ciphertext opens only with one of the two secrets it was sealed with. C90_device states it for a whole device, receiving anything from anybody."
  },
  {
   "property": "C91",
   "status": "partial",
   "theorems": [
    "Verif.Keyhive.HeadsProps.C91_documents_partial",
    "Verif.Keyhive.HeadsProps.C91_groups_partial",
    "Verif.Keyhive.HeadsProps.C91_new_document",
    "Verif.Keyhive.HeadsProps.C91_new_group",
    "Verif.Keyhive.HeadsProps.C91_stays_partial",
    "Verif.Keyhive.HeadsProps.C91_fails"
   ],
   "note": "Proved for all calls as long as the key of the group or document signs nothing but the delegations it was made with, all of which name the same content. False otherwise (witness); see also C82_fails."
  },
  {
   "property": "C92",
   "status": "partial",
   "theorems": [
    "Verif.Keyhive.HeadsProps.C92_revoke_partial",
    "Verif.Keyhive.HeadsProps.C92_add_partial",
    "Verif.Keyhive.HeadsProps.C92_fails"
   ],
   "note": "Which documents are named is proved. The heads are those the document was made with, never those of what has been written since; an addition to a document names none of its content, and hangs when asked to (witness)."
  },
  {
   "property": "C93",
   "status": "partial",
   "theorems": [
    "Verif.Keyhive.TransactProps.C93_abort_partial",
    "Verif.Keyhive.TransactProps.C93_commit_partial",
    "Verif.Keyhive.TransactProps.C93_cards_partial",
    "Verif.Keyhive.TransactProps.C93_key_ops_partial",
    "Verif.Keyhive.TransactProps.C93_keys_fails",
    "Verif.Keyhive.TransactProps.C93_received_fails",
    "Verif.Keyhive.TransactProps.C93_commit_fails"
   ],
   "note": "For devices whose archive loads (C38). A failed transaction leaves no trace. A commit keeps exactly the membership operations, the individuals with their prekeys, and all group-key operations of successful calls. It loses secrets made in the transaction and delegations received in it, and can panic (witnesses)."
  },
  {
   "property": "C94",
   "status": "partial",
   "theorems": [
    "Verif.Keyhive.StatsProps.C94_held_partial",
    "Verif.Keyhive.StatsProps.C94_stays_keyed",
    "Verif.Keyhive.StatsProps.C94_pending",
    "Verif.Keyhive.StatsProps.C94_never_fewer",
    "Verif.Keyhive.StatsProps.C94_restored_partial",
    "Verif.Keyhive.StatsProps.C94_fails"
   ],
   "note": "All numbers are those of the things held, except that the number called active prekeys is that of all prekey operations of the device's own agent, and an individual whose key signs a first delegation is counted no more without a group taking its place (witnesses)."
  },
  {
   "property": "C95",
   "status": "proved",
   "theorems": [
    "Verif.Keyhive.StatsProps.C95_found",
    "Verif.Keyhive.StatsProps.C95_stays_found",
    "Verif.Keyhive.StatsProps.C95_converts"
   ],
   "note": "Digests are collision-free, across delegations and revocations too. Putting an event together checks no signature: nothing is said about that."
  },
  {
   "property": "C96",
   "status": "proved",
   "theorems": [
    "Verif.Keyhive.ReadProps.C96_only_keys",
    "Verif.Keyhive.ReadProps.C96_result",
    "Verif.Keyhive.ReadProps.C96_held",
    "Verif.Keyhive.ReadProps.C96_unknown"
   ],
   "note": "Symbolic encryption: content opens only with the key it was sealed with. That the call returns is C86."
  },
  {
   "property": "C97",
   "status": "partial",
   "theorems": [
    "Verif.Keyhive.TablesProps.C97_named_partial",
    "Verif.Keyhive.TablesProps.C97_never",
    "Verif.Keyhive.TablesProps.C97_not_asked_for",
    "Verif.Keyhive.TablesProps.C97_table",
    "Verif.Keyhive.TablesProps.C97_fails"
   ],
   "note": "True for prekey and group-key operations. False for every delegation and every revocation: it is offered under the digest of the signed operation and waited for under the digest of the event (witness). Up to this the table has exactly the selected events. Digests are collision-free."
  },
  {
   "property": "C98",
   "status": "partial",
   "theorems": [
    "Verif.Keyhive.TablesProps.C98_one_agent",
    "Verif.Keyhive.TablesProps.C98_every_hash",
    "Verif.Keyhive.TablesProps.C98_group_keys",
    "Verif.Keyhive.TablesProps.C98_membership_partial",
    "Verif.Keyhive.TablesProps.C98_fails"
   ],
   "note": "Closedness, the tables for one agent and group-key operations are proved in full; membership operations when no revocation is about a group or document or about another kind of agent with the same id. Otherwise false, as the selections of C56 themselves disagree (witness, C56_fails), also for prekeys."
  },
  {
   "property": "C99",
   "status": "partial",
   "theorems": [
    "Verif.Keyhive.AccessProps.C99_access",
    "Verif.Keyhive.AccessProps.C99_list",
    "Verif.Keyhive.AccessProps.C99_best",
    "Verif.Keyhive.AccessProps.C99_value_partial",
    "Verif.Keyhive.AccessProps.C99_fails"
   ],
   "note": "Who has access, the list and the best of two are proved; the value when groups are nested one deep and then only as a bound. False in general: an admin who is also in a group that may only relay the document is said to be allowed to relay (witness)."
  }
 ]
}