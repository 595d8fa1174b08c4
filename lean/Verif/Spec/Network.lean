import Verif.Model.Network
import Verif.Spec.Server
import Verif.Spec.Scan
import Verif.Spec.UriPath

/-! # What a client may expect of a server behind a network -/
namespace Verif.Spec
open Verif.Model Verif.Model.Retry

/-- `r` is the answer to `m` of a server with these paths and the text at `node`: 2.05 with the text for the node, 4.04 for a path that
leads to nothing. -/
def AnswerTo (paths : List Uri.Entry) (node : Int) (text : List UInt8) (m r : Msg) : Prop :=
  (Denotes paths (-1) (uriPath m) node ∧ r = textReply m text) ∨
  ((∀ q, q ≠ -1 → ¬ Denotes paths (-1) (uriPath m) q) ∧ r = replyTo m 0x84)

/-- `bytes` are an encoding of the message `m`. -/
def Encodes (m : Msg) (bytes : List UInt8) : Prop :=
  m.Ok ∧ ∃ ob, IsOpts 0 m.opts ob ∧ bytes = encHeader m ++ m.token ++ ob ++ encPayload m.payload

/-- The client sent these bytes as a request. -/
def Requested (es : List NetEv) (bytes : List UInt8) : Prop := ∃ now rnd, NetEv.request now rnd bytes ∈ es

/-- The bytes are an encoding of a message whose answers fit into the buffer of the server. -/
def Proper {A : Type} (C : NetCfg A) (bytes : List UInt8) : Prop :=
  ∃ m, Encodes m bytes ∧ 6 + m.token.length + C.text.length ≤ C.cap

/-- What is assumed of events: requests are messages of which the answers fit into the buffer of the server; the token buffers have
eight bytes.  What the memory of the decoders held, or was left in it, is arbitrary. -/
def NetEvOk {A : Type} (C : NetCfg A) : NetEv → Prop
  | .request _ _ bytes => Proper C bytes
  | .service _ => True
  | .serverGets _ junk jt _ => junk.tbuf.length = 8 ∧ jt.length = 8
  | .clientGets _ junk => junk.tbuf.length = 8

/-- A server with a table in which parents come first, a version node and a text. -/
def NetCfgOk {A : Type} (C : NetCfg A) : Prop :=
  ParentsFirst C.paths ∧ C.node ≠ -1 ∧ C.text ≠ [] ∧ C.retryJunk.tbuf.length = 8

end Verif.Spec
