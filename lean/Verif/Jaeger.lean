import Verif.Basic

/-!
Spans sent to Jaeger (src/modules/zipkin_jaeger.c).
-/

namespace Mtev.Jaeger

/-- The module's state: the counter `todo_queue_size`, the queue, the batch
    the submitter gathers, the batches submitted, and the spans whose reference
    was given back.
    /repo/src/modules/zipkin_jaeger.c 56-63, 157-168 -/
structure St where
  size : Nat
  queue : List Nat
  batch : List Nat
  sent : List (List Nat)
  dropped : List Nat
deriving DecidableEq, Repr

/-- Nothing yet. -/
def St.init : St := ⟨0, [], [], [], []⟩

/-- `todo_enqueue`, called for each span published, on any thread.
    /repo/src/modules/zipkin_jaeger.c 65-84.  One step, under the lock.  The
    check before the lock leaves only what the one under it leaves as well: the
    counter never gets smaller. -/
def enqueue (backlog : Nat) (s : St) (span : Nat) : St :=
  if s.size < backlog then { s with size := (s.size + 1) % 2 ^ 32, queue := s.queue ++ [span] } else s

/-- `todo_dequeue`, called by the submitter while its batch is not full.  The
    counter is left as it is.
    /repo/src/modules/zipkin_jaeger.c 85-98, 168 -/
def dequeue (maxBatch : Nat) (s : St) : St :=
  if s.batch.length < maxBatch then
    match s.queue with
    | [] => s
    | x :: xs => { s with queue := xs, batch := s.batch ++ [x] }
  else s

/-- The submitter's batch is full or its time has come: it is encoded and
    posted, and its spans are dropped whatever the answer.
    /repo/src/modules/zipkin_jaeger.c 169-198 -/
def submit (s : St) : St :=
  if s.batch = [] then s
  else { s with sent := s.sent ++ [s.batch], dropped := s.dropped ++ s.batch, batch := [] }

/-- What happens, on all threads. -/
inductive Op where
  | enqueue (span : Nat)
  | dequeue
  | submit

/-- One step.  Helper. -/
def step (backlog maxBatch : Nat) (s : St) : Op → St
  | .enqueue x => enqueue backlog s x
  | .dequeue => dequeue maxBatch s
  | .submit => submit s

/-- A status that is no success. -/
def bad (code : Int) : Bool := code < 200 || code > 299

/-- `jaeger_publish_thrift`, the loop: the value returned, or `none` if it goes
    on after the answers given.  An answer is the status, 0 if the transfer
    failed.  /repo/src/modules/zipkin_jaeger.c 138-149 -/
def publish (retries : Nat) : List Int → Option Int
  | [] => none
  | c :: cs => if retries > 0 ∧ bad c then publish retries cs else some (if bad c then -1 else 0)

end Mtev.Jaeger
