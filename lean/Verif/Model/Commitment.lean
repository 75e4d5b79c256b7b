import Verif.Model.Integer

/-! Model of `backend/commitment.h`.  The hash (`emp::Hash`, SHA-256, external) is a parameter; `Hash::digest`
resets the state, so each call hashes exactly the bytes put since the previous `digest`. -/

namespace Verif.Model.Commitment

/-- `Commitment::commit`, `backend/commitment.h:17-25`, with the randomness drawn. -/
def commit (hash : List Byte → List Byte) (rnd data : List Byte) : List Byte := hash (data ++ rnd)

/-- `Commitment::open`, `backend/commitment.h:26-39`. -/
def opens (hash : List Byte → List Byte) (com rnd data : List Byte) : Bool := com == hash (data ++ rnd)

end Verif.Model.Commitment
