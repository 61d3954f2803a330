import Verif.TimeUtil.Model
import Verif.TimeUtil.Spec
/-!
# Model of the time zone of the library

`/repo/src/time/time_util.c` 166-181, `/repo/src/log/file_logger.c` 117, 218 and `/repo/src/log/xlog.c` 206-216.

`gmtime_r`/`gmtime_s` and `mktime` are library functions: parameters.  `gmtime_r` does not fail (a failure would leave `buf`
uninitialised).  `difftime` is exact (below 2^53 seconds).
-/
namespace Verif.Zone
open Verif.TimeUtil.Spec (Civil)

/-- `time_util_zone_offset_seconds_to_utc`, time_util.c:166-181, called at instant `now`; `none`: the conversion of the
`double` to `int` at 180 is undefined. -/
def zoneOffset (gmtime : Int → Civil) (mktime : Civil → Int) (now : Int) : Option Int :=
  let d := now - mktime (gmtime now)
  if -2 ^ 31 ≤ d ∧ d < 2 ^ 31 then some d else none

/-- `handle->timezone_hour`, file_logger.c:117 -/
def loggerHour (gmtime : Int → Civil) (mktime : Civil → Int) (now : Int) : Option Int :=
  (zoneOffset gmtime mktime now).map fun d => d.tdiv 3600

/-- The date in the name of a log file opened at `sec` by a logger created at `now`, file_logger.c:218 (through
time_util_get_time_str_for_file_name_current and time_util_fast_second2date). -/
def fileDate (gmtime : Int → Civil) (mktime : Civil → Int) (now sec : Int) : Option TimeUtil.Tm :=
  (loggerHour gmtime mktime now).bind fun h => TimeUtil.second2date sec h

/-- `xlog_set_timezone`, xlog.c:206-216: the hour afterwards -/
def setTimezone (old hour : Int) : Int := if hour > 12 ∨ hour < -12 then old else hour

end Verif.Zone
