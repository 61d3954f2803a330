/-!
# Life of a queue handler: creation with refusals, callbacks, destruction

`msg_queue_handler_create` / `_destroy` and the worker thread (src/ring/msg_queue_handler.c:44-141, 167-190), and the
same of the fixed-size handler (src/ring/fixed_msg_queue_handler.c:39-107, 158-181; line numbers in parentheses).  The
queue itself, the semaphore's count and which messages are delivered are the models of `Verif.MsgHandler` and
`Verif.FixedHandler`; here the worker may find a message or not at any time.  Blocks of memory are flags; an access to a
block that is not live sets `ub`.
-/
namespace Verif.HandlerLife

/-- calls of the user's callbacks -/
inductive Cb where
  /-- `MSG_Q_HANDLER_STATUS_READY_TO_GO` -/
  | ready
  /-- a message -/
  | msg
  /-- `MSG_Q_HANDLER_STATUS_ABOUT_TO_STOP` -/
  | stop
  deriving DecidableEq

/-- answers of the system, and the arguments -/
structure Env where
  /-- the fixed-size handler: no message buffer -/
  fixed : Bool
  /-- 117 (82): size large enough, parameters and callback not NULL -/
  args : Bool
  /-- 123 (88): `calloc` -/
  hdl : Bool
  /-- 131 (97): `portable_sem_init` -/
  sem : Bool
  /-- 132 (98): `msg_queue_create` / `fixed_msg_queue_create` -/
  que : Bool
  /-- 134 (100): `portable_thread_create` -/
  thr : Bool
  /-- 51: the worker's first `malloc` -/
  buf : Bool

/-- the creating and destroying thread -/
inductive Main where
  /-- before 117 -/
  | args
  /-- before 123 -/
  | hdl
  /-- before 131 -/
  | sem
  /-- before 132 -/
  | que
  /-- before 134 -/
  | thr
  /-- created (`true`: the handle is not NULL); the next step is the call of `_destroy` -/
  | made (ok : Bool)
  /-- in `_destroy`: before 174, 176, 177, 182, 183, 188; called from the creation (137) or by the user -/
  | kill (k : Nat) (inCreate : Bool)
  /-- `_destroy` called by the user has returned -/
  | over
  deriving DecidableEq

/-- the worker -/
inductive Wrk where
  | none
  /-- before 48 -/
  | start
  /-- before 51 -/
  | buf
  /-- before 66: the semaphore, then the test of `flag2exit` -/
  | loop
  /-- before 73: the queue, then the callback -/
  | pop
  /-- before 103 -/
  | leave
  /-- before 104 -/
  | drop
  /-- before 109 (or 56) -/
  | stop
  | gone
  deriving DecidableEq

/-- what the worker's step does when it has a choice -/
inductive Choice where
  /-- the semaphore blocks (if it may), or the queue is empty -/
  | idle
  /-- the semaphore does not block -/
  | wake
  /-- a message is handled; the callback answers 0, or not -/
  | msg (ok : Bool)
  /-- a message does not fit the buffer; the `malloc` of a larger one succeeds or not (msg_queue_handler only) -/
  | grow (ok : Bool)
  /-- the callback handling a message destroys the handler it is called by -/
  | suicide
  deriving DecidableEq

inductive Ev where
  | main
  | wrk (c : Choice)
  deriving DecidableEq

structure St where
  hdl : Bool
  sem : Bool
  que : Bool
  thr : Bool
  buf : Bool
  flag : Bool
  /-- 176 (167) was executed: from there on the worker does not block at 66 (49) before it has seen the flag -/
  posted : Bool
  ub : Bool
  main : Main
  wrk : Wrk
  trace : List Cb

def St.init : St := ⟨false, false, false, false, false, false, false, false, .args, .none, []⟩

/-- access to `*handler` -/
def St.touch (s : St) : St := { s with ub := s.ub || !s.hdl }

/-- `portable_sem_destroy`: does nothing on a NULL handle (a semaphore that could not be made) -/
def killSem (e : Env) (s : St) : St := if e.sem then { s with sem := false, ub := s.ub || !s.sem } else s

/-- `portable_thread_join` frees the thread's wrapper, if there is one -/
def freeThr (s : St) : St := { s with thr := false }

/-- 183-187 -/
def killQue (e : Env) (s : St) : St := if e.que then { s with que := false, ub := s.ub || !s.que } else s

/-- 188-189 -/
def killHdl (s : St) : St := { s with hdl := false, ub := s.ub || !s.hdl }

/-- one step of the creating / destroying thread -/
def mainStep (e : Env) (s : St) : St :=
  match s.main with
  | .args => if e.args then { s with main := .hdl } else { s with main := .made false }
  | .hdl => if e.hdl then { s with hdl := true, flag := false, main := .sem } else { s with main := .made false }
  | .sem => { s.touch with sem := e.sem, main := .que }
  | .que => if e.que then { s.touch with que := true, main := .thr } else { s.touch with main := .kill 0 true }
  | .thr =>
    if e.thr then { s.touch with thr := true, wrk := .start, main := .made true }
    else { s.touch with main := .kill 0 true }
  | .made ok => if ok then { s with main := .kill 0 false } else s
  | .kill 0 c => { s.touch with flag := true, main := .kill 1 c }
  | .kill 1 c => { s.touch with posted := true, main := .kill 2 c }
  | .kill 2 c =>
    if s.thr then (if s.wrk = .gone then { freeThr s.touch with main := .kill 3 c } else s)
    else { s.touch with main := .kill 3 c }
  | .kill 3 c => { killSem e s.touch with main := .kill 4 c }
  | .kill 4 c => { killQue e s.touch with main := .kill 5 c }
  | .kill _ c => { killHdl s with main := if c then .made false else .over }
  | .over => s

/-- 72-100 (54-70), after the queue was used -/
def popStep (e : Env) (s : St) : Choice → St
  | .msg ok => { s with trace := s.trace ++ [.msg], wrk := if ok then .loop else .leave }
  | .grow ok =>
    if e.fixed then { s with wrk := .loop }
    else if ok then { s with wrk := .loop } else { s with buf := false, wrk := .leave }
  /- `portable_thread_join` of the calling thread: `pthread_join` answers EDEADLK, the wrapper is freed; 182-189 go on;
  the callback then returns 0 -/
  | .suicide =>
    { killHdl (killQue e (killSem e (freeThr { s with flag := true, posted := true }))) with
      trace := s.trace ++ [.msg], wrk := .loop }
  | _ => { s with wrk := .loop }

/-- one step of the worker -/
def wrkStep (e : Env) (s : St) (c : Choice) : St :=
  match s.wrk with
  | .none => s
  | .gone => s
  /- 48 (43) -/
  | .start => { s.touch with trace := s.trace ++ [.ready], wrk := if e.fixed then .loop else .buf }
  /- 51-58 -/
  | .buf =>
    if e.buf then { s.touch with buf := true, wrk := .loop }
    else { s.touch with flag := true, wrk := .stop }
  /- 64-71 (49-53) -/
  | .loop =>
    if c = .idle ∧ !s.posted then { s.touch with ub := s.touch.ub || (e.sem && !s.sem) }
    else { s.touch with ub := s.touch.ub || (e.sem && !s.sem), wrk := if s.flag then .leave else .pop }
  /- 72-100 (54-70) -/
  | .pop => popStep e { s.touch with ub := s.touch.ub || !s.que || (!e.fixed && !s.buf) } c
  /- 103 (73) -/
  | .leave => { s.touch with flag := true, wrk := .drop }
  /- 104-107 -/
  | .drop => { s with buf := false, wrk := .stop }
  /- 109 (75) -/
  | .stop => { s.touch with trace := s.trace ++ [.stop], wrk := .gone }

def step (e : Env) (s : St) : Ev → St
  | .main => mainStep e s
  | .wrk c => wrkStep e s c

def run (e : Env) (s : St) (evs : List Ev) : St := evs.foldl (step e) s

/-- what `_push` answers the user holding the handle: 145-148 (111-114), `false`: `MSG_Q_CODE_NULL_HANDLE` -/
def accepts (s : St) : Bool := s.que && !s.flag

end Verif.HandlerLife
