import Verif.Model.Signal

/-!
Model of distributed processing, core/processing.py: a `DataDealer` that hands out requests to any number of `RepWorker`s and collects the
replies. One step of the system is a send of the dealer, a request processed by one worker or a reply received by the dealer, in any order. The
message queues of ZeroMQ are in the trusted base: requests and replies of one worker are delivered once and in order, a DEALER socket distributes
the requests to its peers in some way (all are allowed here) and takes replies from any peer which has one.
-/

namespace Qampy

/-- A worker as seen from the dealer: the requests waiting for it, whether its loop is still running, its replies under way. -/
structure FarmWorker (R V : Type) where
  queue : List R
  up : Bool
  out : List (Reply V)

/-- The requests still to be sent, the workers and what the calls of `recv_msg` gave so far. -/
structure Farm (R V : Type) where
  todo : List R
  workers : List (FarmWorker R V)
  got : List (Except (V ⊕ String) (V ⊕ String))

/-- `DataDealer.recv_msg`, core/processing.py:121-129: the content of the message if its status is `OK`, otherwise an exception with the message.
(The empty first frame is always there, the replies come from REP sockets.) -/
def recvMsg {V : Type} (r : Reply V) : Except (V ⊕ String) (V ⊕ String) := if r.1 then .ok r.2 else .error r.2

/-- The steps: `DataDealer.send_msg` (core/processing.py:113-119) to some worker, `RepWorker.process` (85-94) of the first request of a running
worker, `DataDealer.recv_msg` (121-129) of the first reply of some worker. -/
inductive FarmStep {R V : Type} (packable : V → Bool) (handler : R → Outcome V) : Farm R V → Farm R V → Prop
  | send (r rs a w b got) : FarmStep packable handler ⟨r :: rs, a ++ w :: b, got⟩ ⟨rs, a ++ { w with queue := w.queue ++ [r] } :: b, got⟩
  | work (r q out a b todo got) : FarmStep packable handler ⟨todo, a ++ ⟨r :: q, true, out⟩ :: b, got⟩
      ⟨todo, a ++ ⟨q, (process packable (handler r)).2, out ++ (process packable (handler r)).1⟩ :: b, got⟩
  | recv (x q up out a b todo got) : FarmStep packable handler ⟨todo, a ++ ⟨q, up, x :: out⟩ :: b, got⟩
      ⟨todo, a ++ ⟨q, up, out⟩ :: b, got ++ [recvMsg x]⟩

/-- An execution of `n` steps. -/
inductive FarmRun {R V : Type} (packable : V → Bool) (handler : R → Outcome V) : Nat → Farm R V → Farm R V → Prop
  | nil (s) : FarmRun packable handler 0 s s
  | snoc (n s t u) : FarmRun packable handler n s t → FarmStep packable handler t u → FarmRun packable handler (n + 1) s u

/-- The start: all requests to be sent, `n` idle workers. -/
def farmStart {R V : Type} (reqs : List R) (n : Nat) : Farm R V := ⟨reqs, List.replicate n ⟨[], true, []⟩, []⟩

/-- A request of the phase recovery worker: the dictionary of core/processing.py:143-147 (`E`, `M`, `syms`, `N` are in `args`). -/
structure PhReq (A : Type) where
  id : Nat
  args : A

/-- `PhRecWorker.do_phase_rec`, core/processing.py:141-149, for the phase search `search` (the imported name `blindphasesearch` does not exist in
this commit, so the search is a parameter): the result with the id of the request, or the exception of the search by its text. -/
def doPhaseRec {A B : Type} (search : A → Except String B) (p : PhReq A) : Outcome (B × Nat) :=
  match search p.args with
  | .ok b => .ret (b, p.id)
  | .error e => .exc e

end Qampy
