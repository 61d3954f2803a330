import Verif.XlogMt.Spec

/-!
# Model of xlog with threads (`/repo/src/log/xlog.c` 25-135, 188-293, 418-551)

Transition system of any number of threads.  Every load from and store to a field of `g_xlog_cfg`, every test of
`g_xlog_mutex`, locking, unlocking and every output is one step.

Simplifications: loads and stores are sequentially consistent (in C the ones outside the lock are data races); strings,
functions and data pointers are numbers, so `strlcpy` to the default tag (203) is one store (its bytes: C57's model), and what
a line looks like is recorded, not its bytes; not Android; the mutex is a default POSIX mutex (locking it twice
never returns); `xlog_global_init` and `xlog_global_cleanup` are one step and do not fail; calls from the user's callback are
modelled only if the mutex exists; redirection of stdout: `Redirect.lean`.
-/
namespace Verif.XlogMt

/-- The fields of `xlog_config_t`, xlog.c 32-65. -/
inductive Field
  | min | trigger | tag | cbFn | cbData | target | format | flush | zone | console | usercb | fTs | fTag | fTid
  deriving DecidableEq, Repr

abbrev Cfg := Field → Int

/-- xlog.c 68-97. -/
def Cfg.init : Cfg
  | .min => 1 | .trigger => 0 | .tag => 1 | .cbFn => 0 | .cbData => 0 | .target => 4 | .format => 6 | .flush => 0 | .zone => 8
  | .console => 1 | .usercb => 0 | .fTs => 1 | .fTag => 1 | .fTid => 0

def Cfg.put (c : Cfg) (f : Field) (x : Int) : Cfg := fun g => if g = f then x else c g

/-- A step of the part of a call under the lock. -/
inductive Micro
  | load (f : Field)
  /-- `first`: the first store of a call -/
  | store (first : Bool) (f : Field) (x : Int)
  /-- 491-522: formatting, `malloc` -/
  | fmt
  /-- 531-533 -/
  | console
  /-- 534-537 -/
  | flush
  /-- 540-543 -/
  | callback
  deriving DecidableEq, Repr

/-- `(bool)(x & mask)` -/
def bit (x : Int) (mask : Nat) : Int := if x.toNat &&& mask = 0 then 0 else 1

/-- What a configuring call does under the lock, xlog.c 188-288; `none`: it returns before. -/
def stores : Call → Option (List Micro)
  /- 188-193 -/
  | .autoLevelUp l => some [.store true .trigger l]
  /- 195-204 -/
  | .defaultTag none => none
  | .defaultTag (some t) => some [.store true .tag t]
  /- 206-215 -/
  | .timezone h => if h > 12 ∨ h < -12 then none else some [.store true .zone h]
  /- 217-223 -/
  | .callback f d => some [.store true .cbFn f, .store false .cbData d]
  /- 225-237 -/
  | .target t =>
    if t < 0 then none
    else some [.store true .target t, .store false .console (bit t 4), .store false .usercb (bit t 8)]
  /- 244-253 -/
  | .minLevel l => if l < 0 ∨ l > 5 then none else some [.store true .min l]
  /- 260-272 -/
  | .format f =>
    if f < 0 then none
    else some [.store true .format f, .store false .fTs (bit f 2), .store false .fTag (bit f 4), .store false .fTid (bit f 8)]
  /- 279-288 -/
  | .flushMode m => if m < 0 then none else some [.store true .flush m]
  | _ => none

/-- The field a getter returns, xlog.c 239-242, 255-258, 274-277, 290-293. -/
def getField : Call → Option Field
  | .getTarget => some .target
  | .getMinLevel => some .min
  | .getFormat => some .format
  | .getFlushMode => some .flush
  | _ => none

/-- xlog.c 437-543 under the lock. -/
def printProg : List Micro :=
  [.load .console, .load .usercb, .load .trigger, .load .tag, .load .format, .load .fTs, .load .zone, .load .fTag, .load .fTid,
   .fmt, .console, .load .flush, .flush, .load .cbFn, .load .cbData, .callback]

/-- Where a thread is. -/
inductive Pc
  | idle
  /-- 430 (109): about to load `target`, `min_level`, `min_level` again -/
  | chk1 (level : Nat) (tag : Option Nat) (id : Nat)
  | chk2 (level : Nat) (tag : Option Nat) (id : Nat)
  | chk3 (level : Nat) (tag : Option Nat) (id : Nat)
  /-- a getter, about to load -/
  | get (f : Field)
  /-- `XLOG_LOCK`, 101: about to test the pointer -/
  | want (c : Call)
  /-- in `portable_mutex_lock` -/
  | lock (c : Call)
  /-- under the lock: what is still to do, the values loaded -/
  | body (c : Call) (todo : List Micro) (v : Cfg)
  /-- in the user's callback -/
  | inCb (c : Call) (todo : List Micro) (v : Cfg)
  /-- in `portable_mutex_unlock` (the test of the pointer, 102, is the step before) -/
  | unlock
  /-- about to return -/
  | done (value : Int)
  /-- waiting, inside the callback, for the mutex it holds itself -/
  | dead
  deriving Inhabited

structure Sys where
  cfg : Cfg
  /-- `g_xlog_mutex`: `none` for NULL, else the owner -/
  mutex : Option (Option Nat)
  pc : Nat → Pc

/-- Program start. -/
def Sys.init : Sys := { cfg := Cfg.init, mutex := none, pc := fun _ => .idle }

def Sys.go (s : Sys) (t : Nat) (p : Pc) : Sys := { s with pc := fun u => if u = t then p else s.pc u }

/-- Events. -/
inductive Ev
  | call (t : Nat) (c : Call)
  /-- thread `t` makes its next step -/
  | act (t : Nat)
  /-- `vsnprintf` or `malloc` fails (496-501, 511-514) -/
  | fail (t : Nat)
  /-- thread `t` calls xlog from the callback -/
  | nest (t : Nat) (c : Call)
  /-- the callback returns -/
  | cbRet (t : Nat)
  | globalInit
  | globalCleanup
  deriving DecidableEq, Repr

/-- xlog.c 438-479: what the line looks like. -/
def lookOf (v : Cfg) (level : Nat) (tag : Option Nat) : Look :=
  let lv : Nat := if v .trigger ≠ 0 ∧ (level : Int) < v .trigger then (v .trigger).toNat else level
  let tg : Nat := tag.getD (v .tag).toNat
  if v .format ≠ 0 ∧ (v .console ≠ 0 ∨ v .usercb ≠ 0) then
    { level := lv, stamp := if v .fTs ≠ 0 then some (v .zone) else none, tag := if v .fTag ≠ 0 then some tg else none,
      tid := v .fTid ≠ 0 }
  else { level := lv, stamp := none, tag := none, tid := false }

/-- The output of a step of `c` with the loaded values `v`. -/
def output (c : Call) (v : Cfg) : Micro → List Out
  | .console => match c with
    | .print level tag id => if v .console ≠ 0 then [.console id (lookOf v level tag)] else []
    | _ => []
  | .flush => if v .console ≠ 0 ∧ v .flush ≠ 0 then [.flush] else []
  | .callback => match c with
    | .print level tag id =>
      if v .usercb ≠ 0 ∧ v .cbFn ≠ 0 then [.callback (v .cbFn).toNat (v .cbData).toNat id (lookOf v level tag)] else []
    | _ => []
  | _ => []

/-- Start of a call. -/
def start : Call → Pc
  | .print level tag id => .chk1 level tag id
  | c => match getField c with
    | some f => .get f
    | none => match stores c with
      | some _ => .want c
      | none => .done 0

/-- The part under the lock. -/
def prog : Call → List Micro
  | .print _ _ _ => printProg
  | c => (stores c).getD []

/-- One step of the part under the lock. -/
def exec (s : Sys) (t : Nat) (c : Call) (m : Micro) (todo : List Micro) (v : Cfg) : Sys × List Obs :=
  match m with
  | .load f => (s.go t (.body c todo (v.put f (s.cfg f))), [])
  | .store first f x => ({ s with cfg := s.cfg.put f x }.go t (.body c todo v), if first then [.commit t] else [])
  | .callback => match output c v .callback with
    | [] => (s.go t (.body c todo v), [])
    | o :: _ => (s.go t (.inCb c todo v), [.out t o])
  | m => (s.go t (.body c todo v), (output c v m).map (.out t))

/-- A call made from the callback would wait for the mutex. -/
def needsLock (cfg : Cfg) : Call → Bool
  | .print level _ _ => cfg .target ≠ 0 ∧ cfg .min ≠ 0 ∧ level < 6 ∧ (level : Int) ≥ cfg .min
  | c => (stores c).isSome

/-- The next step of thread `t`; `none`: it waits. -/
def act (s : Sys) (t : Nat) : Option (Sys × List Obs) :=
  match s.pc t with
  | .idle | .inCb _ _ _ | .dead => none
  | .chk1 l g i => some (if s.cfg .target ≠ 0 then s.go t (.chk2 l g i) else s.go t (.done 0), [])
  | .chk2 l g i => some (if s.cfg .min ≠ 0 ∧ l < 6 then s.go t (.chk3 l g i) else s.go t (.done 0), [])
  | .chk3 l g i => some (if (l : Int) ≥ s.cfg .min then s.go t (.want (.print l g i)) else s.go t (.done 0), [])
  | .get f => some (s.go t (.done (s.cfg f)), [])
  | .want c => match s.mutex with
    | none => some (s.go t (.body c (prog c) (fun _ => 0)), [.enter t])
    | some _ => some (s.go t (.lock c), [])
  | .lock c => match s.mutex with
    | none => some (s.go t .dead, [.undefined t])
    | some none => some ({ s with mutex := some (some t) }.go t (.body c (prog c) (fun _ => 0)), [.enter t])
    | some (some _) => none
  | .body _ [] _ => match s.mutex with
    | none => some (s.go t (.done 0), [.leave t])
    | some _ => some (s.go t .unlock, [])
  | .body c (m :: todo) v => some (exec s t c m todo v)
  | .unlock => match s.mutex with
    | some (some u) =>
      if u = t then some ({ s with mutex := some none }.go t (.done 0), [.leave t]) else some (s.go t .dead, [.undefined t])
    | _ => some (s.go t .dead, [.undefined t])
  | .done v => some (s.go t .idle, [.ret t v])

/-- One event. -/
def step (s : Sys) : Ev → Option (Sys × List Obs)
  | .call t c => match s.pc t with
    | .idle => some (s.go t (start c), [.call t c])
    | _ => none
  | .act t => act s t
  | .fail t => match s.pc t with
    | .body c (.fmt :: _) v => some (s.go t (.body c [] v), [.failed t])
    | _ => none
  | .nest t c => match s.pc t, s.mutex with
    | .inCb _ _ _, some _ => some (if needsLock s.cfg c then s.go t .dead else s, [.nested t c])
    | _, _ => none
  | .cbRet t => match s.pc t with
    | .inCb c todo v => some (s.go t (.body c todo v), [])
    | _ => none
  /- xlog.c 118-126 -/
  | .globalInit => match s.mutex with
    | some _ => some (s, [.globalInit 1])
    | none => some ({ s with mutex := some none }, [.globalInit 0])
  /- xlog.c 128-137 -/
  | .globalCleanup => match s.mutex with
    | none => some (s, [.globalCleanup 1])
    | some none => some ({ s with mutex := none }, [.globalCleanup 0])
    | some (some u) => some ({ s with mutex := none }, [.globalCleanup 0, .undefined u])

/-- A run: final state and everything observed. -/
def run (s : Sys) : List Ev → Option (Sys × List Obs)
  | [] => some (s, [])
  | e :: es => (step s e).bind fun (s, x) => (run s es).map fun (s, y) => (s, x ++ y)

end Verif.XlogMt
