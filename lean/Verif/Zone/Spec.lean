import Verif.TimeUtil.Spec
/-! # Specification: time zones, `gmtime` and `mktime` (nothing from the model is used) -/
namespace Verif.Zone.Spec
open Verif.TimeUtil.Spec

/-- A time zone: how many seconds its clocks are ahead of UTC at each instant (seconds since 1970). -/
abbrev TZ := Int → Int

/-- At instant `t` the clocks of zone `z` show `c`. -/
def Shows (z : TZ) (c : Civil) (t : Int) : Prop := c.Valid ∧ (c.seconds : Int) = epoch.seconds + t + z t

/-- UTC -/
def utc : TZ := fun _ => 0

/-- The contract of `gmtime` at one instant. -/
def GmTime (gm : Int → Civil) (t : Int) : Prop := Shows utc (gm t) t

/-- The contract of `mktime` in zone `z` with `tm_isdst = -1`: an instant at which the clocks show `c`, if there is one (there
are two when clocks are set back, none when they are set forward). -/
def MkTime (z : TZ) (mk : Civil → Int) : Prop := ∀ c, (∃ t, Shows z c t) → Shows z c (mk c)

end Verif.Zone.Spec
