import Verif.Model.Legacy

/-!
# Model of `AggregateMessageObserver` (src/exp/message-observer.h) and `FactoryAggregator` (src/exp/factory.h)

The classes of an aggregate are given at compile time as a list.  Objects are made with the `operator new` of
src/coap-dispatcher.h:354-357, which takes memory from the object stack of the context; the stack itself is in a library
that is not in the checkout, so only how much is taken is counted.
-/
namespace Verif.Model

/-- A class of message observers that share a context `χ`: what the members of a new object hold (a class without
constructor leaves in them what the memory at that place of the object stack held, hence the argument), what each call
does to the context and to the object, and the size of an object — src/exp/message-observer.h:24-66. -/
structure MObs (χ : Type) where
  σ : Type
  fresh : Nat → σ
  call : χ → σ → LEvent → χ × σ
  size : Nat

/-- The context, and how much of its object stack is taken — src/coap/context.h:297-316. -/
structure AggCtx (χ : Type) where
  ctx : χ
  used : Nat

variable {χ : Type}

/-- `on_header_invoker`, `on_token_invoker` and both `on_option_invoker` for one class, with `ctor_selector` and
`dtor_helper` — src/exp/message-observer.h:35-66, 83-124.  The destructor is called; the memory is not given back. -/
def MObs.invoke (o : MObs χ) (a : AggCtx χ) (e : LEvent) : AggCtx χ :=
  ⟨(o.call a.ctx (o.fresh a.used) e).1, a.used + o.size⟩

/-- The invokers for several classes — src/exp/message-observer.h:126-156. -/
def invokeAll (os : List (MObs χ)) (a : AggCtx χ) (e : LEvent) : AggCtx χ :=
  os.foldl (fun a o => o.invoke a e) a

/-- The calls made to an aggregate — src/exp/message-observer.h:158-180.  `on_payload` and `on_complete` are the empty
functions of the base class (src/coap/experimental-observer.h:41-44). -/
def aggCall (os : List (MObs χ)) (a : AggCtx χ) : LEvent → AggCtx χ
  | .header h => invokeAll os a (.header h)
  | .token t l => invokeAll os a (.token t l)
  | .option n l => invokeAll os a (.option n l)
  | .value n v l => invokeAll os a (.value n v l)
  | .payload _ _ => a
  | .complete => a

/-- The calls of the dispatch, one after the other — src/coap/decoder/subject.h:241-248. -/
def aggRun (os : List (MObs χ)) (a : AggCtx χ) (es : List LEvent) : AggCtx χ := es.foldl (aggCall os) a

/-- A message handed over in buffers to a subject that dispatches to an aggregate — src/coap/decoder/subject.h:241-248. -/
def aggDispatch (fuel : Nat) (d : Dec) (os : List (MObs χ)) (a : AggCtx χ) (cs : List (List UInt8)) (l : List UInt8) :
    Except Fault (Dec × AggCtx χ) :=
  match Dec.legacyChunks fuel d cs l with
  | .error e => .error e
  | .ok (d, evs) => .ok (d, aggRun os a evs)

/-- A factory as `FactoryAggregator` needs it: `can_create` and `create`, either of which may change the factory; `create`
tells what was made — src/exp/factory.h:27-47. -/
structure AFactory (κ ω : Type) where
  φ : Type
  state : φ
  canCreate : φ → κ → φ × Bool
  create : φ → κ → φ × ω

/-- One factory of `create_helper`: what it becomes and what it made — src/exp/factory.h:33-46. -/
def AFactory.ask {κ ω : Type} (f : AFactory κ ω) (key : κ) : AFactory κ ω × List ω :=
  let r := f.canCreate f.state key
  if r.2 then
    let c := f.create r.1 key
    ({ f with state := c.1 }, [c.2])
  else ({ f with state := r.1 }, [])

/-- `create_helper` from an index down to 0, the factories being given last to first — src/exp/factory.h:27-49. -/
def createHelper {κ ω : Type} (key : κ) : List (AFactory κ ω) → List (AFactory κ ω) × List ω
  | [] => ([], [])
  | f :: fs =>
    let r := f.ask key
    let rs := createHelper key fs
    (r.1 :: rs.1, r.2 ++ rs.2)

/-- `FactoryAggregator::create` — src/exp/factory.h:53-58.  Nothing is returned to the caller in the code; the second
component is what the factories made. -/
def aggregatorCreate {κ ω : Type} (key : κ) (fs : List (AFactory κ ω)) : List (AFactory κ ω) × List ω :=
  let r := createHelper key fs.reverse
  (r.1.reverse, r.2)

end Verif.Model
