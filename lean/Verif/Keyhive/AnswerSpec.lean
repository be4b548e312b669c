import Verif.Keyhive.Spec

/-! # What a caller sees of a call on a device -/

namespace Verif.Keyhive

open Verif.Group Verif.Cgka Verif.BeeKem

/-- What a call returns. -/
inductive Answer where
  | received (r : Except Err Unit)
  | ingested (r : Option (Except Err (List Event)))
  | card (r : Except Prekey.Err Unit)
  | made (r : Except Err Id)
  | added (r : Except Err (Dlg × List SOp))
  | revoked (r : Except Err (List SOp))
  | encrypted (r : Except Err (EncContent × Option SOp))
  | decrypted (r : Except Doc.DecryptErr (Nat × AppKey))
  | updated (r : Except Err (SOp × Sk))

/-- What the call returns. -/
def Call.answer (E : Env) (k : Keyhive) : Call → Answer
  | .receive e => .received (k.receive E e).2
  | .ingest ord events => .ingested (k.ingest E ord events).2
  | .contactCard op => .card (k.reg.receiveContactCard E.hashKey E.validKey op).2
  | .newGroup S gid coparents => .made (k.generateGroup E S gid coparents).2
  | .newDoc L S did coparents heads => .made (k.generateDoc E L S did coparents heads).2
  | .addToGroup L gid who can content => .added (k.addMemberToGroup E L gid who can content).2
  | .addToDoc L did who can content => .added (k.addMemberToDoc E L did who can content).2
  | .revokeFromGroup L gid member retain content => .revoked (k.revokeFromGroup E L gid member retain content).2
  | .revokeFromDoc L did member retain content => .revoked (k.revokeFromDoc E L did member retain content).2
  | .ingestArchive ord a => .ingested (k.ingestArchive E ord a).2
  | .encrypt L did contentRef predRefs plain => .encrypted (k.encryptContent E L did contentRef predRefs plain).2
  | .decrypt did e => .decrypted (k.decryptContent E did e).2
  | .pcsUpdate L did => .updated (k.forcePcsUpdate E L did).2

/-- The call does not return. -/
inductive Answer.Stuck : Answer → Prop
  | received {e : Err} : e.fatal = true → Answer.Stuck (.received (.error e))
  | ingested {e : Err} : e.fatal = true → Answer.Stuck (.ingested (some (.error e)))

/-- The choice of a prekey depends on the individuals the device knows, and on nothing else of it. -/
def Local.ByPrekeys (L : Local) : Prop := ∀ k k' : Keyhive, k'.reg = k.reg → L.pick k' = L.pick k

/-- The same for the choices made in a call. -/
def Call.ByPrekeys : Call → Prop
  | .newDoc L _ _ _ _ => L.ByPrekeys
  | .addToGroup L _ _ _ _ => L.ByPrekeys
  | .addToDoc L _ _ _ _ => L.ByPrekeys
  | _ => True

/-- The device after calls made one after the other. -/
def Keyhive.afterCalls (E : Env) (k : Keyhive) (calls : List Call) : Keyhive := calls.foldl (fun k c => c.run E k) k

end Verif.Keyhive
