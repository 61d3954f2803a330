import Verif.Portable.Model
/-! # Specification of the portable handles: the life of an object, and what each call must do with it -/
namespace Verif.Portable.Spec

/-- the primitive that brings an object of this kind to life -/
def isInit : Kind → Fn → Prop
  | .thread, .pthread_create => True
  | .mutex, .pthread_mutex_init => True
  | .rwlock, .pthread_rwlock_init => True
  | .sem, .sem_init _ => True
  | _, _ => False

/-- the primitives that may be used on a living object of this kind -/
def isUse : Kind → Fn → Prop
  | .thread, .pthread_setname_np _ => True
  | .mutex, .pthread_mutex_lock => True
  | .mutex, .pthread_mutex_unlock => True
  | .rwlock, .pthread_rwlock_rdlock => True
  | .rwlock, .pthread_rwlock_wrlock => True
  | .rwlock, .pthread_rwlock_unlock => True
  | .sem, .sem_wait => True
  | .sem, .sem_post => True
  | .sem, .sem_getvalue => True
  | _, _ => False

/-- the primitive that ends the life of an object of this kind -/
def isEnd : Kind → Fn → Prop
  | .thread, .pthread_join => True
  | .mutex, .pthread_mutex_destroy => True
  | .rwlock, .pthread_rwlock_destroy => True
  | .sem, .sem_destroy => True
  | _, _ => False

/-- the object lives: initialised successfully, then used, not destroyed -/
def Living (k : Kind) (l : List (Fn × Int)) : Prop :=
  ∃ f us, isInit k f ∧ (∀ u ∈ us, isUse k u.1) ∧ l = (f, 0) :: us

/-- the object is gone: it was never initialised successfully, or it lived and then was destroyed, once -/
def Gone (k : Kind) (l : List (Fn × Int)) : Prop :=
  (∃ f r, isInit k f ∧ r ≠ 0 ∧ l = [(f, r)]) ∨
  (∃ us d r, Living k us ∧ isEnd k d ∧ l = us ++ [(d, r)])

/-- what happened to object `p`, in order -/
def story (p : Nat) (t : List Ev) : List (Fn × Int) := (t.filter (·.obj = p)).map fun e => (e.fn, e.ret)

/-- the calls that use a handle: the type, the address of the handle variable, the primitive -/
def uses : Call → Option (Kind × Option Nat × Fn)
  | .mutexLock h => some (.mutex, h, .pthread_mutex_lock)
  | .mutexUnlock h => some (.mutex, h, .pthread_mutex_unlock)
  | .rwlockRdlock h => some (.rwlock, h, .pthread_rwlock_rdlock)
  | .rwlockWrlock h => some (.rwlock, h, .pthread_rwlock_wrlock)
  | .rwlockUnlock h => some (.rwlock, h, .pthread_rwlock_unlock)
  | .semWait h => some (.sem, h, .sem_wait)
  | .semPost h => some (.sem, h, .sem_post)
  | .semGetvalue h => some (.sem, h, .sem_getvalue)
  | _ => none

/-- the calls that initialise a handle -/
def inits : Call → Option (Kind × Option Nat × Fn)
  | .threadCreate h true _ => some (.thread, h, .pthread_create)
  | .mutexInit h => some (.mutex, h, .pthread_mutex_init)
  | .rwlockInit h => some (.rwlock, h, .pthread_rwlock_init)
  | .semInit h v => some (.sem, h, .sem_init v)
  | _ => none

/-- the calls that destroy a handle given by its variable -/
def destroys : Call → Option (Kind × Option Nat × Fn)
  | .mutexDestroy h => some (.mutex, h, .pthread_mutex_destroy)
  | .rwlockDestroy h => some (.rwlock, h, .pthread_rwlock_destroy)
  | .semDestroy h => some (.sem, h, .sem_destroy)
  | _ => none

end Verif.Portable.Spec
