import Verif.Model.AEAD

/-! The exchange at the end of `AEAD::decrypt`, `protocol/aead.h:427-491`, for one honest party against an arbitrary peer.
The two branches (ALICE 433-454, BOB 455-484) run the same steps: send the commitment, receive the other one, send the
opening, receive the other one, `open`, compare. -/

namespace Verif.Model.DecryptEnd
open AEAD

/-- The messages of the peer: each may depend on everything the party has sent before.
`protocol/aead.h:433-484`. -/
structure Peer where
  /-- the commitment, received after the party's commitment was sent -/
  com : List Byte → List Byte
  /-- block and randomness, received after the party's opening was sent -/
  opening : List Byte → Block → List Byte → Block × List Byte

/-- `protocol/aead.h:427-491` for one party with its value `out`, randomness `rnd` and tag. -/
def run (hash : List Byte → List Byte) (out : Block) (rnd tag : List Byte) (p : Peer) : Bool :=
  let com := Commitment.commit hash rnd (blockBytes out)
  let com' := p.com com
  let o := p.opening com out rnd
  finish hash out com' o.2 o.1 tag

/-- The peer that runs the protocol with its own value and randomness. `protocol/aead.h:433-484`. -/
def honest (hash : List Byte → List Byte) (out : Block) (rnd : List Byte) : Peer :=
  ⟨fun _ => Commitment.commit hash rnd (blockBytes out), fun _ _ _ => (out, rnd)⟩

end Verif.Model.DecryptEnd
