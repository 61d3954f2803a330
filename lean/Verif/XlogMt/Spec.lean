/-!
# What a program that configures xlog and logs from several threads may rely on

The calls of the API and their observable effects, and a machine that says which sequences of effects are correct.  `enter` and
`leave` mark two moments between the start of a call and its return; between `enter` and `leave` of one call no other call is
between its own.
-/
namespace Verif.XlogMt

/-- The calls.  Strings, functions and data pointers are numbers (0: `NULL`). -/
inductive Call
  | autoLevelUp (level : Nat)
  | defaultTag (tag : Option Nat)
  | timezone (hour : Int)
  | callback (fn data : Nat)
  | target (t : Int)
  | minLevel (l : Int)
  | format (f : Int)
  | flushMode (m : Int)
  | getTarget
  | getMinLevel
  | getFormat
  | getFlushMode
  /-- one of the logging macros; `id` names the message; `tag = none`: no tag given -/
  | print (level : Nat) (tag : Option Nat) (id : Nat)
  deriving DecidableEq, Repr

/-- How a line looks: level, local time of which zone, which tag, thread number or not. -/
structure Look where
  level : Nat
  stamp : Option Int
  tag : Option Nat
  tid : Bool
  deriving DecidableEq, Repr

/-- Output of one logging call. -/
inductive Out
  | console (id : Nat) (look : Look)
  | flush
  /-- the user's function is called with this data -/
  | callback (fn data : Nat) (id : Nat) (look : Look)
  deriving DecidableEq, Repr

/-- What can be observed of thread `t`. -/
inductive Obs
  | call (t : Nat) (c : Call)
  | enter (t : Nat)
  | commit (t : Nat)
  | out (t : Nat) (o : Out)
  /-- the message could not be formatted -/
  | failed (t : Nat)
  | leave (t : Nat)
  | ret (t : Nat) (value : Int)
  /-- thread `t`, in its callback, makes a call -/
  | nested (t : Nat) (c : Call)
  /-- return value of `xlog_global_init`, `xlog_global_cleanup` -/
  | globalInit (value : Nat)
  | globalCleanup (value : Nat)
  /-- a mutex is misused -/
  | undefined (t : Nat)
  deriving DecidableEq, Repr

namespace Spec

/-- The configuration. -/
structure Conf where
  minLevel : Nat
  trigger : Nat
  tag : Nat
  cb : Nat × Nat
  target : Nat
  format : Nat
  flush : Nat
  zone : Int
  deriving DecidableEq, Repr

/-- Effect of a configuring call; `none`: the value is refused, or the call does not configure. -/
def accept (c : Conf) : Call → Option Conf
  | .autoLevelUp l => some { c with trigger := l }
  | .defaultTag (some t) => some { c with tag := t }
  | .timezone h => if -12 ≤ h ∧ h ≤ 12 then some { c with zone := h } else none
  | .callback f d => some { c with cb := (f, d) }
  | .target t => if 0 ≤ t then some { c with target := t.toNat } else none
  | .minLevel l => if 0 ≤ l ∧ l ≤ 5 then some { c with minLevel := l.toNat } else none
  | .format f => if 0 ≤ f then some { c with format := f.toNat } else none
  | .flushMode m => if 0 ≤ m then some { c with flush := m.toNat } else none
  | _ => none

/-- What a getter answers. -/
def value (c : Conf) : Call → Option Int
  | .getTarget => some c.target
  | .getMinLevel => some c.minLevel
  | .getFormat => some c.format
  | .getFlushMode => some c.flush
  | _ => none

/-- The look of a line under a configuration: bits 1, 2, 3 of the format ask for time, tag and thread. -/
def look (c : Conf) (level : Nat) (tag : Option Nat) : Look :=
  { level := max c.trigger level
    stamp := if c.format.testBit 1 then some c.zone else none
    tag := if c.format.testBit 2 then some (tag.getD c.tag) else none
    tid := c.format.testBit 3 }

/-- Everything a logging call that is not filtered puts out: bit 2 of the target is the console, bit 3 the callback. -/
def expected (c : Conf) (level : Nat) (tag : Option Nat) (id : Nat) : List Out :=
  (if c.target.testBit 2 then Out.console id (look c level tag) :: (if c.flush ≠ 0 then [Out.flush] else []) else []) ++
  (if c.target.testBit 3 ∧ c.cb.1 ≠ 0 then [Out.callback c.cb.1 c.cb.2 id (look c level tag)] else [])

/-- The configuration lets a message of the level pass. -/
def Passes (c : Conf) (level : Nat) : Prop := c.target ≠ 0 ∧ c.minLevel ≠ 0 ∧ c.minLevel ≤ level ∧ level ≤ 5

/-- A thread. -/
inductive TS
  | idle
  /-- inside a call, before `enter`; the configurations there were since the call began -/
  | opened (c : Call) (seen : List Conf)
  /-- a configuring call between `enter` and `leave` -/
  | setting (c : Call) (committed : Bool)
  /-- a logging call between `enter` and `leave`; its output so far -/
  | printing (level : Nat) (tag : Option Nat) (id : Nat) (outs : List Out) (failed : Bool)
  /-- after `leave` -/
  | left

structure St where
  conf : Conf
  th : Nat → TS

/-- Between `enter` and `leave`. -/
def TS.Inside : TS → Prop
  | .setting _ _ => True
  | .printing _ _ _ _ _ => True
  | _ => False

/-- A new configuration is noticed by the calls under way. -/
def TS.notice (n : Conf) : TS → TS
  | .opened c seen => .opened c (n :: seen)
  | x => x

def St.set (S : St) (t : Nat) (x : TS) : St := { S with th := fun u => if u = t then x else S.th u }

/-- The correct effects. -/
inductive Step : St → Obs → St → Prop
  | call {S : St} {t : Nat} {c : Call} : S.th t = .idle → Step S (.call t c) (S.set t (.opened c [S.conf]))
  /-- a configuring call with an acceptable value takes its turn -/
  | enterSet {S : St} {t : Nat} {c : Call} {seen : List Conf} :
      (∀ u, ¬ (S.th u).Inside) → S.th t = .opened c seen → (accept S.conf c).isSome = true →
      Step S (.enter t) (S.set t (.setting c false))
  /-- its effect, once -/
  | commit {S : St} {t : Nat} {c : Call} {n : Conf} :
      S.th t = .setting c false → accept S.conf c = some n →
      Step S (.commit t) { conf := n, th := fun u => if u = t then .setting c true else (S.th u).notice n }
  | leaveSet {S : St} {t : Nat} {c : Call} : S.th t = .setting c true → Step S (.leave t) (S.set t .left)
  /-- a logging call takes its turn only if since it began there was a target, logging was on, and the level was high enough -/
  | enterPrint {S : St} {t level id : Nat} {tag : Option Nat} {seen : List Conf} :
      (∀ u, ¬ (S.th u).Inside) → S.th t = .opened (.print level tag id) seen →
      (∃ c ∈ seen, c.target ≠ 0) → (∃ c ∈ seen, c.minLevel ≠ 0) → (∃ c ∈ seen, c.minLevel ≤ level) → level ≤ 5 →
      Step S (.enter t) (S.set t (.printing level tag id [] false))
  /-- output: the next piece of what the configuration of this moment demands -/
  | out {S : St} {t level id : Nat} {tag : Option Nat} {outs : List Out} {o : Out} :
      S.th t = .printing level tag id outs false → outs ++ [o] <+: expected S.conf level tag id →
      Step S (.out t o) (S.set t (.printing level tag id (outs ++ [o]) false))
  /-- a message that cannot be formatted gives no output at all -/
  | failed {S : St} {t level id : Nat} {tag : Option Nat} :
      S.th t = .printing level tag id [] false → Step S (.failed t) (S.set t (.printing level tag id [] true))
  | leavePrint {S : St} {t level id : Nat} {tag : Option Nat} {outs : List Out} {f : Bool} :
      S.th t = .printing level tag id outs f → (f = false → outs = expected S.conf level tag id) →
      Step S (.leave t) (S.set t .left)
  | retLeft {S : St} {t : Nat} {v : Int} : S.th t = .left → Step S (.ret t v) (S.set t .idle)
  /-- returning at once: a value out of range, … -/
  | retRefused {S : St} {t : Nat} {c : Call} {seen : List Conf} {v : Int} :
      S.th t = .opened c seen → accept S.conf c = none → value S.conf c = none → (∀ l g i, c ≠ .print l g i) →
      Step S (.ret t v) (S.set t .idle)
  /-- … a message that was filtered by a configuration there was during the call, … -/
  | retFiltered {S : St} {t level id : Nat} {tag : Option Nat} {seen : List Conf} {v : Int} :
      S.th t = .opened (.print level tag id) seen → (∃ c ∈ seen, ¬ Passes c level) → Step S (.ret t v) (S.set t .idle)
  /-- … a getter: the value of a configuration there was during the call -/
  | retValue {S : St} {t : Nat} {c : Call} {seen : List Conf} {v : Int} :
      S.th t = .opened c seen → (∃ n ∈ seen, value n c = some v) → Step S (.ret t v) (S.set t .idle)
  /-- the user's function may call xlog -/
  | nested {S : St} {t level id : Nat} {tag : Option Nat} {outs : List Out} {fn data i : Nat} {l : Look} {c : Call} :
      S.th t = .printing level tag id (outs ++ [.callback fn data i l]) false → Step S (.nested t c) S

/-- A sequence of correct effects. -/
inductive Run : St → List Obs → St → Prop
  | nil {S : St} : Run S [] S
  | cons {S T U : St} {o : Obs} {os : List Obs} : Step S o T → Run T os U → Run S (o :: os) U

/-- The configuration at program start: VERBOSE, no trigger, the tag "XLog" (1), no callback, console, time and tag, no
flushing, UTC+8. -/
def St.init : St :=
  { conf := { minLevel := 1, trigger := 0, tag := 1, cb := (0, 0), target := 4, format := 6, flush := 0, zone := 8 }
    th := fun _ => .idle }

end Spec
end Verif.XlogMt
