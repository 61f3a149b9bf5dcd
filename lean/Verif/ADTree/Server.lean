import Verif.ADTree.Session
/-!
# The AD-tree server and its clients (C95)

`adtree-server.py` answers requests on a REP socket, in a loop without end; any number of clients
(`tests/ADTreeClient.py`), each with a REQ socket, call it at any time.  What is in transit, who is served
first, and when a client goes away or the server is killed, is not determined.
-/
namespace Mbtk.Server
open Mbtk Mbtk.ADTree Mbtk.ADTree.Spec

/-- What a client sends: a pair of a request and its arguments.  Simplified: the arguments of the two known
requests have the right type. adtree-server.py 38-50, ADTreeClient.py 12, 18. -/
inductive Msg where
  | makePmf (cols : List Nat)
  | queryCount (q : List (Nat × Int))
  | other (name : String)

/-- What a REP socket raises when `recv` and `send` do not alternate. (Python itself.) -/
def efsm : Err := .custom "ZMQError"

/-- Where the server is: at `recv_pyobj`, with a request in hand, or ended by an exception.
adtree-server.py 36-58. -/
inductive Pc where
  | recv
  | handle (m : Msg)
  | stopped (e : Err)

/-- What a client is doing: nothing, waiting at `recv_pyobj` for the reply to a request, or gone.
ADTreeClient.py 11-20. -/
inductive Client where
  | idle
  | waiting (m : Msg)
  | gone

/-- The server, its tree and its socket (the client to whom a reply is owed); the requests and the replies in
transit; the clients, and the calls that have returned. adtree-server.py 27-58, ADTreeClient.py 6-20. -/
structure Sys (ι : Type) where
  tree : ADNode
  counters : Counters
  pc : Pc
  owes : Option ι
  inbox : List (ι × Msg)
  outbox : List (ι × Answer)
  client : ι → Client
  log : List (ι × Msg × Answer)

/-- The two `if` statements, with what is sent. adtree-server.py 39-58. -/
def body (D : Data) (dyn : Bool) (m : Msg) (tree : ADNode) : TM (List Answer × ADNode) := do
  let (out, tree) ← (match m with
    | .makePmf cols => do
      let (d, tree) ← makePmf D dyn cols tree
      pure ([Answer.pmf d], tree)
    | _ => pure ([], tree))
  let (out', tree) ← (match m with
    | .queryCount q => do
      let (n, tree) ← queryCount D dyn q tree
      pure ([Answer.count n], tree)
    | _ => pure ([], tree))
  pure (out ++ out', tree)

/-- `socket.send_pyobj`, once for each reply: only to a client to whom a reply is owed.
adtree-server.py 47, 57. -/
def sendAll {ι : Type} (s : Sys ι) : List Answer → Sys ι
  | [] => { s with pc := .recv }
  | a :: as => match s.owes with
    | some c => sendAll { s with owes := none, outbox := s.outbox ++ [(c, a)] } as
    | none => { s with pc := .stopped efsm }

/-- A request is handled, and the server is back at `recv_pyobj`, or ended. adtree-server.py 39-58. -/
def work {ι : Type} (D : Data) (dyn : Bool) (s : Sys ι) (m : Msg) : Sys ι :=
  match body D dyn m s.tree s.counters with
  | .error e => { s with pc := .stopped e }
  | .ok ((out, tree), counters) => sendAll { s with tree := tree, counters := counters } out

/-- Something that happens. (Models no code: a notion for statements and proofs.) -/
inductive Event (ι : Type) where
  | call (c : ι) (m : Msg)
  | receive
  | work
  | deliver
  | leave (c : ι)
  | kill

/-- The server as it is started, with the tree from the file, before any call.
adtree-server.py 27-36. -/
def start (ι : Type) (tree : ADNode) (counters : Counters) : Sys ι where
  tree := tree
  counters := counters
  pc := .recv
  owes := none
  inbox := []
  outbox := []
  client _ := .idle
  log := []

/-- What can happen next. adtree-server.py 36-58, ADTreeClient.py 11-20. -/
inductive Step {ι : Type} [DecidableEq ι] (D : Data) (dyn : Bool) : Event ι → Sys ι → Sys ι → Prop where
  /-- A client that is not waiting calls one of its methods (ADTreeClient.py 12, 18). -/
  | call (s : Sys ι) (c : ι) (m : Msg) : s.client c = .idle →
      Step D dyn (.call c m) s { s with client := Function.update s.client c (.waiting m), inbox := s.inbox ++ [(c, m)] }
  /-- The server receives any of the requests in transit (adtree-server.py 38). -/
  | receive (s : Sys ι) (l l' : List (ι × Msg)) (c : ι) (m : Msg) : s.pc = .recv → s.owes = none →
      s.inbox = l ++ (c, m) :: l' →
      Step D dyn .receive s { s with pc := .handle m, owes := some c, inbox := l ++ l' }
  /-- Receiving while a reply is owed (adtree-server.py 38). -/
  | receiveFails (s : Sys ι) (c : ι) : s.pc = .recv → s.owes = some c →
      Step D dyn .receive s { s with pc := .stopped efsm }
  /-- The request is handled (adtree-server.py 39-58). -/
  | work (s : Sys ι) (m : Msg) : s.pc = .handle m → Step D dyn .work s (work D dyn s m)
  /-- A reply arrives, and the call returns it (ADTreeClient.py 13-14, 19-20). -/
  | deliver (s : Sys ι) (l l' : List (ι × Answer)) (c : ι) (a : Answer) (m : Msg) :
      s.outbox = l ++ (c, a) :: l' → s.client c = .waiting m →
      Step D dyn .deliver s { s with outbox := l ++ l', client := Function.update s.client c .idle, log := s.log ++ [(c, m, a)] }
  /-- A reply to a client that is not there is dropped. -/
  | drop (s : Sys ι) (l l' : List (ι × Answer)) (c : ι) (a : Answer) :
      s.outbox = l ++ (c, a) :: l' → s.client c = .gone →
      Step D dyn .deliver s { s with outbox := l ++ l' }
  /-- A client goes away, waiting or not. -/
  | leave (s : Sys ι) (c : ι) : Step D dyn (.leave c) s { s with client := Function.update s.client c .gone }
  /-- The server process is killed. -/
  | kill (s : Sys ι) : Step D dyn .kill s { s with pc := .stopped (.custom "killed") }

/-- A series of events. (Models no code: a notion for statements and proofs.) -/
inductive Run {ι : Type} [DecidableEq ι] (D : Data) (dyn : Bool) : List (Event ι) → Sys ι → Sys ι → Prop where
  | nil (s : Sys ι) : Run D dyn [] s s
  | snoc {tr : List (Event ι)} {e : Event ι} {s s' s'' : Sys ι} : Run D dyn tr s s' → Step D dyn e s' s'' →
      Run D dyn (tr ++ [e]) s s''

/-! ## Specification -/

/-- What a request asks of the tree, if it is one of the two. (Specification.) -/
def Msg.request : Msg → Option Request
  | .makePmf cols => some (.pmf cols)
  | .queryCount q => some (.count q)
  | .other _ => none

/-- The reply says what is true of the dataset. (Specification.) -/
def Right (D : Data) (m : Msg) (a : Answer) : Prop := ∃ r, m.request = some r ∧ Correct D r a

/-- `make_pmf` and `query_count` are asked for existing columns, as documented; other requests are not
restricted. (Specification.) -/
def Proper (D : Data) (m : Msg) : Prop := ∀ r, m.request = some r → r.Valid D

/-- One of the two requests, for existing columns. (Specification.) -/
def Good (D : Data) (m : Msg) : Prop := ∃ r, m.request = some r ∧ r.Valid D

/-- All calls in the series satisfy `P`. (Specification.) -/
def Calls {ι : Type} (P : Msg → Prop) (tr : List (Event ι)) : Prop := ∀ c m, Event.call c m ∈ tr → P m

/-- The requests of a client, in order. (Specification.) -/
def asked {ι : Type} [DecidableEq ι] (c : ι) (tr : List (Event ι)) : List Msg :=
  tr.filterMap (fun e => match e with
    | .call c' m => if c' = c then some m else none
    | _ => none)

/-- The calls of a client that have returned, in order. (Specification.) -/
def answered {ι : Type} [DecidableEq ι] (c : ι) (s : Sys ι) : List (Msg × Answer) :=
  s.log.filterMap (fun e => if e.1 = c then some e.2 else none)

/-- The request a client is waiting for. (Specification.) -/
def pendingOf : Client → List Msg
  | .waiting m => [m]
  | _ => []

/-- The server has ended. (Specification.) -/
def Pc.Stopped (p : Pc) : Prop := ∃ e, p = .stopped e

/-! ## The invariant -/

/-- The clients with something in transit, or being served.
(Models no code: a notion for statements and proofs.) -/
def tokens {ι : Type} (s : Sys ι) : List ι := s.inbox.map Prod.fst ++ (s.owes.toList ++ s.outbox.map Prod.fst)

/-- What holds at any time. (Models no code: a notion for statements and proofs.) -/
structure Inv {ι : Type} (D : Data) (dyn : Bool) (s : Sys ι) : Prop where
  tree : TreeOk D dyn s.tree s.counters
  nodup : (tokens s).Nodup
  inbox : ∀ c m, (c, m) ∈ s.inbox → s.client c = .waiting m ∨ s.client c = .gone
  proper : ∀ c m, (c, m) ∈ s.inbox → Proper D m
  handle : ∀ m, s.pc = .handle m → Proper D m ∧ ∃ c, s.owes = some c ∧ (s.client c = .waiting m ∨ s.client c = .gone)
  owes : ∀ c, s.owes = some c → ∃ m, (s.client c = .waiting m ∨ s.client c = .gone) ∧
    (s.pc = .recv → ∃ n, m = .other n)
  outbox : ∀ c a, (c, a) ∈ s.outbox → (∃ m, s.client c = .waiting m ∧ Right D m a) ∨ s.client c = .gone
  waiting : ∀ c m, s.client c = .waiting m → c ∈ tokens s
  log : ∀ c m a, (c, m, a) ∈ s.log → Right D m a

theorem body_ok {D : Data} (hD : Usable D) (dyn : Bool) {m : Msg} {tree : ADNode} {s : Counters}
    (h : TreeOk D dyn tree s) {r : Request} (hr : m.request = some r) (hv : r.Valid D) :
    Ok (body D dyn m tree) s (fun p s' => (∃ a, p.1 = [a] ∧ Correct D r a) ∧ TreeOk D dyn p.2 s') := by
  cases m with
  | makePmf cols =>
    cases hr
    obtain ⟨⟨d, n⟩, s', h1, h2, h3⟩ := makePmf_ok hD hv h.1 h.2.1 h.2.2.1 s
    refine ⟨([.pmf d], n), s', ?_, ⟨_, rfl, h2⟩, h3.treeOk h⟩
    simp only [body, StateT.bind, bind, h1, pure, StateT.pure, Except.bind, Except.pure]
    rfl
  | queryCount q =>
    cases hr
    obtain ⟨⟨d, n⟩, s', h1, h2, h3⟩ := queryCount_ok hD hv h.1 h.2.1 s
    refine ⟨([.count d], n), s', ?_, ⟨_, rfl, h2⟩, h3.treeOk h⟩
    simp only [body, StateT.bind, bind, h1, pure, StateT.pure, Except.bind, Except.pure]
    rfl
  | other n => cases hr

theorem body_other (D : Data) (dyn : Bool) (n : String) (tree : ADNode) (s : Counters) :
    body D dyn (.other n) tree s = .ok (([], tree), s) := rfl

end Mbtk.Server
