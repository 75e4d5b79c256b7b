import Verif.Model.GateOffline

/-! The members of `Record`, `RecordOffline`, `HandShake` and `HandShakeOffline` that pass records on to the record objects. -/

namespace Verif.Model.Gate

/-- A call of such a member; the object passed by the caller is the one keyed with the client write key if `client`.
`protocol/record.h:13,29`, `protocol/handshake.h:328,342,355`. -/
inductive Member where
  | recordEncrypt (client : Bool) (iv : List Byte) (n : Nat)
  | recordDecrypt (client : Bool) (iv : List Byte) (n : Nat)
  | encryptClientFinished (client : Bool) (iv : List Byte) (n : Nat)
  | decryptServerFinished (client : Bool) (iv : List Byte) (n : Nat)
  | decryptAndCheckServerFinished (client : Bool) (iv : List Byte)

/-- The call each makes.  `Record`, `protocol/record.h:13-42`: `sec_type` is `true`.  `HandShake`, `protocol/handshake.h:328-370`: `sec_type` is left at
its default `false` (`protocol/aead.h:179,320`); the last one is for `finished_msg_length` bytes. -/
def Member.call (j : Nat → Nat → Wire) : Member → Call
  | .recordEncrypt c iv n => .encrypt j c iv n true
  | .recordDecrypt c iv n => .decrypt j c iv n true
  | .encryptClientFinished c iv n => .encrypt j c iv n false
  | .decryptServerFinished c iv n => .decrypt j c iv n false
  | .decryptAndCheckServerFinished c iv => .decrypt j c iv finishedMsgLength false

/-- The members of the offline phase: `RecordOffline`, `protocol/record.h:45-56`, and `HandShakeOffline`, `protocol/handshake.h:651-657`. -/
inductive OffMember where
  | recordEncrypt (client : Bool) (n : Nat)
  | recordDecrypt (client : Bool) (n : Nat)
  | encryptClientFinished (client : Bool) (n : Nat)
  | decryptServerFinished (client : Bool) (n : Nat)

/-- `protocol/record.h:50,53`, `protocol/handshake.h:651,655`. -/
def OffMember.call (j : Nat → Nat → Wire) : OffMember → OffCall
  | .recordEncrypt c n => .encrypt j c n true
  | .recordDecrypt c n => .decrypt j c n true
  | .encryptClientFinished c n => .encrypt j c n false
  | .decryptServerFinished c n => .decrypt j c n false

end Verif.Model.Gate
